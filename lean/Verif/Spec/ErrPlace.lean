import Verif.Model.ErrPlace
import Verif.Spec.InertText

/-!
# Where an error about an attribute belongs
-/

namespace Hooq

/-- The token stands in the text, perhaps in groups. -/
inductive Within (t : TT) : List TT → Prop
  | here (ts : List TT) : Within t (t :: ts)
  | later {ts : List TT} (u : TT) : Within t ts → Within t (u :: ts)
  | group {g : List TT} (d : Delim) (sp : Span) (ts : List TT) : Within t g → Within t (.group d g sp :: ts)

/-- The text begins with the tokens `us`, when groups without delimiters are left out; `r`
comes right behind the last of them. -/
inductive Passes : (us r ts : List TT) → Prop
  | stop (ts : List TT) : Passes [] ts ts
  | token {t : TT} {us r r' ts : List TT} : Begins t r' ts → Passes us r r' → Passes (t :: us) r ts

/-- The place of an error in a text that should be `ok`: what stands before it may be
continued to something that is `ok`. -/
inductive FaultAt (ok : List TT → Prop) (ts : List TT) : ErrPlace → Prop
  /-- It may no longer with the next token, `b`.  The place is there, or, if `b` is the first token
  of a group without delimiters, at that group. -/
  | token {us r r' : List TT} {t b : TT} : Passes us (t :: r) ts → (∃ more, ok (us ++ more)) →
      Begins b r' (t :: r) → (∀ more, ¬ ok (us ++ b :: more)) → FaultAt ok ts (.token t.span)
  /-- Only empty groups without delimiters follow. -/
  | rest {us r : List TT} {t : TT} : Passes us (t :: r) ts → (∃ more, ok (us ++ more)) → Blank (t :: r) →
      FaultAt ok ts (.token t.span)
  /-- Nothing follows. -/
  | ending {us : List TT} : Passes us [] ts → (∃ more, ok (us ++ more)) → FaultAt ok ts .root

/-- Words with `::` between them, then `r`. -/
inductive Names : (r ts : List TT) → Prop
  | one {x : String} {r ts : List TT} (sp : Span) : PlainWord x → Begins (.ident x sp) r ts → Names r ts
  | more {x : String} {r r1 r2 ts : List TT} (sp : Span) : PlainWord x → Begins (.ident x sp) r1 ts →
      ColonsText r2 r1 → Names r r2 → Names r ts

/-- The name of a binding, then `r`.  It may be a path, for which there is another error. -/
def BoundName (r ts : List TT) : Prop :=
  (∃ sp, Begins (.ident "unsafe" sp) r ts) ∨ Names r ts ∨ ∃ ts', ColonsText ts' ts ∧ Names r ts'

/-- `name = value`. -/
def BindingText (value : List TT → Option (Value × List TT)) (ts : List TT) : Prop :=
  ∃ r v, BoundName r ts ∧ EqText value v r

/-- The place of an error in the text of a binding. -/
inductive BindFault (R : ErrReader) (ts : List TT) : ErrPlace → Prop
  /-- The text before `=`. -/
  | name {p : ErrPlace} : FaultAt (BindingText R.value) ts p → BindFault R ts p
  /-- A `:` that is not followed by another one. -/
  | colon {us r r' : List TT} {t : TT} (sp : Span) : Passes us (t :: r) ts → (∃ more, BindingText R.value (us ++ more)) →
      Begins (.punct ':' sp) r' (t :: r) → (∀ sp r'', ¬ Begins (.punct ':' sp) r'' r') → BindFault R ts (.token t.span)
  /-- The value cannot be read. -/
  | value {r r' : List TT} (sp : Span) : BoundName r ts → Begins (.punct '=' sp) r' r → R.value r' = none →
      BindFault R ts (R.fault r')
  /-- Something follows the value. -/
  | rest {r r' r1 r2 : List TT} {v : Value} {t : TT} (sp : Span) : BoundName r ts → Begins (.punct '=' sp) r' r →
      R.value r' = some (v, r1) → Begins t r2 r1 → BindFault R ts (.token t.span)

/-- Errors about what the name of an attribute stands for. -/
inductive AboutName : Err → Prop
  | form (p : Path) : AboutName (.attrForm p)
  | unknown (p : Path) : AboutName (.unknownAttr p)
  | target (s : String) : AboutName (.badHookTarget s)
  | ignore : AboutName .ignoreFlavorForm
  | missing (f : List String) (l : List (List String)) : AboutName (.flavorNotFound f l)
  | load (s : String) : AboutName (.tomlLoad s)

/-- Errors about the value. -/
inductive AboutValue : Err → Prop
  | path (e : FlavorPathErr) : AboutValue (.flavorPath e)
  | form (s : String) : AboutValue (.flavorValue s)

/-- Where the error about the attribute with the text `ts` belongs. -/
inductive ShownAt (R : ErrReader) (ts : List TT) : Err → ErrPlace → Prop
  /-- At its beginning. -/
  | name {e : Err} {t : TT} {r : List TT} : AboutName e → Begins t r ts → ShownAt R ts e (.token t.span)
  /-- At its value. -/
  | value {e : Err} {x : String} {r r' : List TT} {t : TT} (sp : Span) : AboutValue e → HooqText x r ts →
      Begins (.punct '=' sp) r' r → Within t r' → ShownAt R ts e (.token t.span)
  /-- In its arguments: strings. -/
  | strings {x : String} {g : List TT} {p : ErrPlace} :
      x ∈ ["hook_targets", "tail_expr_idents", "ignore_tail_expr_idents", "result_types"] → HooqList x g ts →
      p ≠ .root → FaultAt (fun us => ∃ l, StringsText l us) g p → ShownAt R ts .stringsParse p
  /-- `true` or `false`. -/
  | bool {g : List TT} {p : ErrPlace} : HooqList "hook_in_macros" g ts →
      (∀ x sp r, x = "true" ∨ x = "false" → ¬ Begins (.ident x sp) r g) →
      FaultAt (fun us => WordText "true" us ∨ WordText "false" us) g p → ShownAt R ts .boolParse p
  /-- What stands behind it. -/
  | behind {x : String} {g r r' : List TT} {t : TT} (sp : Span) : HooqList "hook_in_macros" g ts →
      x = "true" ∨ x = "false" → Begins (.ident x sp) r g → Begins t r' r → ShownAt R ts .boolParse (.token t.span)
  /-- A name and a value. -/
  | binding {x : String} {g : List TT} {p : ErrPlace} : x = "binding" ∨ x = "var" → HooqList x g ts →
      BindFault R g p → ShownAt R ts .bindingParse p
  /-- The name that is not a word. -/
  | bound {x : String} {g r : List TT} {t : TT} : x = "binding" ∨ x = "var" → HooqList x g ts → Begins t r g →
      ShownAt R ts .bindingName (.token t.span)

/-- What is assumed of the places that `syn` gives: they are in the value, and there is some value. -/
structure ErrReader.Sound (R : ErrReader) : Prop where
  start : ∀ {r v r'}, R.value r = some (v, r') → ∃ t, Within t r ∧ R.start r = t.span
  fault : ∀ {r sp}, R.value r = none → R.fault r = .token sp → ∃ t, Within t r ∧ sp = t.span
  rest : ∀ {r v r' t}, R.value r = some (v, r') → Within t r' → Within t r
  reads : ∃ r v, R.value r = some (v, [])

/-- The arguments are missing something at the end. -/
inductive Unfinished (R : ErrReader) : List TT → Prop
  | start {ts : List TT} : ts = [] ∨ ColonsText [] ts → Unfinished R ts
  | name {ts : List TT} : BoundName [] ts → Unfinished R ts
  | colons {r ts : List TT} : Names r ts ∨ (∃ ts', ColonsText ts' ts ∧ Names r ts') → ColonsText [] r → Unfinished R ts
  | value {r r' ts : List TT} (sp : Span) : BoundName r ts → Begins (.punct '=' sp) r' r → R.value r' = none →
      R.fault r' = .root → Unfinished R ts

end Hooq
