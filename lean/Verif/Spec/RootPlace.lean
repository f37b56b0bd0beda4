import Verif.Model.RootPlace
import Verif.Spec.ErrPlace

/-!
# Where an error about the arguments of `#[hooq(..)]` belongs
-/

namespace Hooq

/-- The place of an error in a name. -/
inductive NameFault (ok : List TT → Prop) (ts : List TT) : ErrPlace → Prop
  /-- What stands before it may be continued. -/
  | place {p : ErrPlace} : FaultAt ok ts p → NameFault ok ts p
  /-- A `:` that is not followed by another one. -/
  | colon {us r r' : List TT} {t : TT} (sp : Span) : Passes us (t :: r) ts → (∃ more, ok (us ++ more)) →
      Begins (.punct ':' sp) r' (t :: r) → (∀ sp r'', ¬ Begins (.punct ':' sp) r'' r') → NameFault ok ts (.token t.span)

/-- The whole name at the beginning, then `r`, which does not continue it. -/
def WholeName (r ts : List TT) : Prop :=
  BoundName r ts ∧ ∀ q, ColonsText q r → ∃ sp, Begins (.ident "unsafe" sp) r ts

/-- An argument, whether or not it means anything, then `r`. -/
inductive AnyArg (value : List TT → Option (Value × List TT)) : (r ts : List TT) → Prop
  | name {r ts : List TT} : WholeName r ts → (∀ r' sp, ¬ Begins (.punct '=' sp) r' r) →
      (∀ d g sp r', ¬ Begins (.group d g sp) r' r) → AnyArg value r ts
  | list {d : Delim} {g r ts : List TT} (sp : Span) : WholeName (.group d g sp :: r) ts → d ≠ .none → AnyArg value r ts
  | value {v : Value} {r r1 r2 ts : List TT} (sp : Span) : WholeName r1 ts → Begins (.punct '=' sp) r2 r1 →
      value r2 = some (v, r) → AnyArg value r ts

/-- Arguments, whether or not they mean anything, with commas between them and perhaps one
behind. -/
inductive AnyArgs (value : List TT → Option (Value × List TT)) : List TT → Prop
  | nil : AnyArgs value []
  | one {ts : List TT} : AnyArg value [] ts → AnyArgs value ts
  | cons {r r' ts : List TT} (sp : Span) : AnyArg value r ts → Begins (.punct ',' sp) r' r → AnyArgs value r' →
      AnyArgs value ts

/-- The place of an error in the text of arguments. -/
inductive ArgsFault (R : ErrReader) : List TT → ErrPlace → Prop
  /-- The name of an argument. -/
  | name {ts : List TT} {p : ErrPlace} : NameFault (fun us => ∃ r, WholeName r us) ts p → ArgsFault R ts p
  /-- The arguments behind it are in a group without delimiters. -/
  | wrapped {d : Delim} {g g' r r' ts : List TT} (sp sp' : Span) : WholeName (.group .none g sp :: r) ts →
      Begins (.group d g' sp') r' (.group .none g sp :: r) → ArgsFault R ts (.token sp)
  /-- Its value. -/
  | value {r r' ts : List TT} (sp : Span) : WholeName r ts → Begins (.punct '=' sp) r' r → R.value r' = none →
      ArgsFault R ts (R.fault r')
  /-- What stands behind it. -/
  | behind {r ts : List TT} {t : TT} : AnyArg R.value (t :: r) ts → (∀ sp r', ¬ Begins (.punct ',' sp) r' (t :: r)) →
      ArgsFault R ts (.token t.span)
  /-- A later argument. -/
  | later {r r' ts : List TT} {p : ErrPlace} (sp : Span) : AnyArg R.value r ts → Begins (.punct ',' sp) r' r →
      ArgsFault R r' p → ArgsFault R ts p

/-- The text `us` begins in `ts` behind accepted arguments. -/
inductive Behind (env : Env) (us : List TT) : List TT → Prop
  | here : Behind env us us
  | next {a : RootArg} {r r' ts : List TT} (sp : Span) : ArgText env a r ts → Begins (.punct ',' sp) r' r →
      Behind env us r' → Behind env us ts

/-- Where the error about the argument that `ts` begins with belongs. -/
inductive ArgShown (R : ArgReader) (env : Env) (ts : List TT) : Err → ErrPlace → Prop
  /-- The argument is none of the known ones. -/
  | unknown {t : TT} {r : List TT} {l : List (List String)} : Begins t r ts → ArgShown R env ts (.rootArg l) (.token t.span)
  /-- The string is not the name of a flavor. -/
  | string {e : FlavorPathErr} {s : String} {r r1 r2 : List TT} (sp1 sp2 sp : Span) :
      Begins (.ident "flavor" sp1) r1 ts → Begins (.punct '=' sp2) r2 r1 → Begins (.lit (.str s) sp) r r2 →
      (∀ l : List String, ¬ SpelledAs s.toList (l.map String.toList)) →
      ArgShown R env ts (.flavorPath e) (.token sp)
  /-- The traits are not paths. -/
  | uses {x : String} {d : Delim} {g r : List TT} (sp1 sp2 : Span) : x = "trait_use" ∨ x = "trait_uses" →
      Begins (.ident x sp1) (.group d g sp2 :: r) ts → d ≠ .none → env.parsePaths g = none →
      ArgShown R env ts .pathsParse (R.pathsFault g)

/-- Errors about the flavor that is selected, or about hooq.toml. -/
inductive AboutFlavor : Err → Prop
  | missing (f : List String) (l : List (List String)) : AboutFlavor (.flavorNotFound f l)
  | load (s : String) : AboutFlavor (.tomlLoad s)

/-- The place where the text begins. -/
inductive AtStart : List TT → ErrPlace → Prop
  | empty : AtStart [] .root
  | first (t : TT) (r : List TT) : AtStart (t :: r) (.token t.span)

/-- Where an error about the arguments with the text `ts` belongs. -/
inductive RootShown (R : ArgReader) (env : Env) (ts : List TT) : EntryErr → ErrPlace → Prop
  /-- They are no arguments. -/
  | syntax {p : ErrPlace} : ¬ AnyArgs R.value ts → ArgsFault R.toErrReader ts p → RootShown R env ts .argSyntax p
  /-- The first argument that is not accepted. -/
  | arg {us : List TT} {e : Err} {p : ErrPlace} : AnyArgs R.value ts → Behind env us ts → (∀ a r, ArgText env a r us →
      ¬ (r = [] ∨ ∃ sp r', Begins (.punct ',' sp) r' r)) → ArgShown R env us e p → RootShown R env ts (.expansion e) p
  /-- All arguments are accepted, but the flavor cannot be had. -/
  | flavor {l : List RootArg} {e : Err} {p : ErrPlace} : ArgsText env l ts → AboutFlavor e → AtStart ts p →
      RootShown R env ts (.expansion e) p

/-- What is assumed of the parts of `syn` that are not modelled: a value is read from the
beginning of the text, its errors are in its text, strings are read as such, and errors in paths
are in the text of the paths. -/
structure ArgReader.Sound (R : ArgReader) : Prop where
  strings : ReadsStrings R.value
  value : R.toErrReader.Sound
  shrinks : ∀ {r v r'}, R.value r = some (v, r') → (openedAll r').length ≤ (openedAll r).length
  paths : ∀ {g sp}, R.pathsFault g = .token sp → ∃ t, Within t g ∧ sp = t.span

end Hooq
