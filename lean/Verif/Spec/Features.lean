import Verif.Model.Features
import Verif.Spec.Position

/-!
# What Cargo features may change
-/

namespace Hooq

/-- A feature is switched on: it is selected, or a feature that is on asks for it. -/
inductive On (table : List (String × List String)) (selected : List String) : String → Prop
  | selected {f : String} : f ∈ selected → On table selected f
  | implied {f g : String} {l : List String} : On table selected f → (f, l) ∈ table → g ∈ l →
      On table selected g

/-- The flavors that come with the features (/repo/docs/en/hooq-mdbook-en/src/reference/features.md). -/
def PresetFeatures.Offers (ft : PresetFeatures) (name : String) : Prop :=
  (name = "log" ∧ ft.log = true) ∨ (name = "anyhow" ∧ ft.anyhow = true) ∨
  ((name = "eyre" ∨ name = "color_eyre") ∧ ft.eyre = true) ∨ (name = "tracing" ∧ ft.tracing = true)

/-- The text of a method ends in `!`. -/
def EndsInBang (ts : List TT) : Prop := ∃ l sp, openedAll ts = l ++ [.punct '!' sp]

mutual
/-- The texts of all methods in a table of `hooq.toml`. -/
def Table.methods : Table → List String
  | .mk f subs => f.method.toList ++ tablesMethods subs
/-- The texts of all methods in some tables. -/
def tablesMethods : List (String × Table) → List String
  | [] => []
  | (_, t) :: rest => t.methods ++ tablesMethods rest
end

/-- No method of `hooq.toml` ends in `!`. -/
def TomlNoBang (T : TomlEnv) (toml : AMap Table) : Prop :=
  ∀ m ∈ tablesMethods toml, ∀ ts, T.lex m = some ts → ¬ EndsInBang ts

/-- No `#[hooq::method(..)]` in the item ends in `!`. -/
def ItemNoBang (i : Item) : Prop :=
  ∀ p n, i.tree.sub p = some n → ∀ ts, Meta.list (hooqPath "method") ts ∈ n.data.attrs → ¬ EndsInBang ts

/-- The value of an attribute spells a flavor below the top-level name. -/
def Value.Spells (v : Value) (name : String) : Prop :=
  (∃ p rest, v.view = .path p ∧ flavorPathOfPath p = .ok (name :: rest)) ∨
  (∃ s rest, v.view = .litStr s ∧ flavorPathOfString s = .ok (name :: rest))

/-- The attribute or argument mentions a flavor below the top-level name. -/
def Meta.Mentions (a : Meta) (name : String) : Prop :=
  (∃ p rest, a = .path p ∧ flavorPathOfPath p = .ok (name :: rest)) ∨
  (∃ p v, a = .nv p v ∧ v.Spells name)

/-- The invocation `#[hooq(args)] item` mentions a flavor below the top-level name. -/
def Mentioned (args : List Meta) (i : Item) (name : String) : Prop :=
  (∃ a ∈ args, a.Mentions name) ∨
  ∃ p n, i.tree.sub p = some n ∧ ∃ a ∈ n.data.attrs, ∃ q v, a = .nv q v ∧ v.Spells name

/-- What may become of a result when flavors are added whose top-level names are `New`: it
stays as it is, except that a flavor that was missing may be there now, and that error messages
may list other flavors. -/
inductive Enriched (New : String → Prop) {α : Type} : Except Err α → Except Err α → Prop
  | same (x : Except Err α) : Enriched New x x
  | found {name : String} {rest : List String} {names : List (List String)} {y : Except Err α} : New name →
      Enriched New (.error (.flavorNotFound (name :: rest) names)) y
  | listed {path : List String} {names names' : List (List String)} :
      Enriched New (.error (.flavorNotFound path names)) (.error (.flavorNotFound path names'))
  | help {names names' : List (List String)} :
      Enriched New (.error (.rootArg names)) (.error (.rootArg names'))

end Hooq
