import Verif.Spec.Toml
import Verif.Spec.Position
import Verif.Model.Features

/-!
# What an expansion depends on in `hooq.toml`
-/

namespace Hooq

/-- The value of an attribute spells the flavor path. -/
def Value.SpellsPath (v : Value) (path : List String) : Prop :=
  (∃ p, v.view = .path p ∧ flavorPathOfPath p = .ok path) ∨
  (∃ s, v.view = .litStr s ∧ flavorPathOfString s = .ok path)

/-- The argument of the root attribute selects the flavor. -/
def Meta.Selects (a : Meta) (path : List String) : Prop :=
  (∃ p, a = .path p ∧ flavorPathOfPath p = .ok path ∧ path ≠ []) ∨
  (∃ p v s, a = .nv p v ∧ p = Path.ofIdents ["flavor"] ∧ v.view = .litStr s ∧ flavorPathOfString s = .ok path)

/-- The inert attribute takes a setting, or all, from the flavor. -/
def Meta.Takes (a : Meta) (path : List String) : Prop :=
  ∃ x v, a = .nv (hooqPath x) v ∧ v.SpellsPath path ∧
    x ∈ ["flavor", "method", "hook_targets", "tail_expr_idents", "result_types", "hook_in_macros", "bindings"]

/-- The flavors that `#[hooq(args)] item` uses: what the arguments select, `default` if they select
nothing, and what inert attributes take. -/
def Uses (args : List Meta) (i : Item) (path : List String) : Prop :=
  (∃ a ∈ args, a.Selects path) ∨
  ((∀ a ∈ args, ∀ q, ¬ a.Selects q) ∧ path = ["default"]) ∨
  ∃ p n, i.tree.sub p = some n ∧ ∃ a ∈ n.data.attrs, a.Takes path

/-- The flavors of an expansion with the file `toml`. -/
def flavorsWith (T : TomlEnv) (hl : List TT) (toml : AMap Table) (ft : PresetFeatures) (c : Bool) :
    Except TomlErr FlavorMap :=
  applyToml { T with consume := c } (defaultSettings c hl) (presetFlavors c hl ft) toml

/-- The same outcome: related results, or the same error, where the lists of flavors in a message
are related by `N` and the message about a broken file may be another one. -/
inductive SameOutcome (N : List (List String) → List (List String) → Prop) {α : Type} (Q : α → α → Prop) :
    Except Err α → Except Err α → Prop
  | ok {a b : α} : Q a b → SameOutcome N Q (.ok a) (.ok b)
  | error (e : Err) : SameOutcome N Q (.error e) (.error e)
  | listed {path : List String} {l l' : List (List String)} : N l l' →
      SameOutcome N Q (.error (.flavorNotFound path l)) (.error (.flavorNotFound path l'))
  | help {l l' : List (List String)} : N l l' → SameOutcome N Q (.error (.rootArg l)) (.error (.rootArg l'))
  | load {msg msg' : String} : SameOutcome N Q (.error (.tomlLoad msg)) (.error (.tomlLoad msg'))

/-- The tables on the way to the path are the same in both files, up to the order of bindings;
their other sub-tables do not count. -/
def SameAlong (toml toml' : AMap Table) (path : List String) : Prop :=
  ∀ p, p <+: path → Option.Rel (fun t u => SameFields t.fields u.fields) (tableAt toml p) (tableAt toml' p)

end Hooq
