import Verif.Model.ExcerptArgs
import Verif.Spec.Metas

/-!
# How the options of the excerpt macros are written and what they mean
-/

namespace Hooq

/-- An option: a name and maybe a value. -/
abbrev Opt := String × Option OptLit

/-- A literal, then `r`. -/
inductive LitText {E : Type} (R : OptReader E) : OptLit → (r ts : List TT) → Prop where
  | lit {x : Lit} {r ts : List TT} (sp : Span) : Begins (.lit x sp) r ts → LitText R (R.lit x) r ts
  | bool {x : String} {r ts : List TT} (sp : Span) : x = "true" ∨ x = "false" → Begins (.ident x sp) r ts →
      LitText R .other r ts
  /-- A negative integer is never an allowed value. -/
  | negInt {x : Lit} {v : Option Nat} {r r1 ts : List TT} (sp1 sp2 : Span) : Begins (.punct '-' sp1) r1 ts →
      Begins (.lit x sp2) r r1 → R.number x = true → R.lit x = .int v → LitText R (.int none) r ts
  | negFloat {x : Lit} {r r1 ts : List TT} (sp1 sp2 : Span) : Begins (.punct '-' sp1) r1 ts →
      Begins (.lit x sp2) r r1 → R.number x = true → (∀ v, R.lit x ≠ .int v) → LitText R .other r ts

/-- `@name`, then `r`. -/
def NameText (name : String) (r ts : List TT) : Prop :=
  name ∉ otherKeywords ++ ["super", "self", "Self", "crate"] ∧
    ∃ sp1 sp2 r1, Begins (.punct '@' sp1) r1 ts ∧ Begins (.ident name sp2) r r1

/-- A text that begins with one of the marks `@`, `,` and `;`. -/
def Marked (ts : List TT) : Prop := ∃ c sp r, (c = '@' ∨ c = ',' ∨ c = ';') ∧ Begins (.punct c sp) r ts

/-- A macro input, its options and its payload: options are written with commas, which can be left
out after values, and a semicolon may stand behind them. -/
inductive InputText {E : Type} (R : OptReader E) : List Opt → (payload ts : List TT) → Prop where
  | plain {ts : List TT} : ¬ Marked ts → InputText R [] ts ts
  | semi {payload ts : List TT} (sp : Span) : Begins (.punct ';' sp) payload ts → InputText R [] payload ts
  | flag {name : String} {os : List Opt} {r r' payload ts : List TT} (sp : Span) : NameText name r ts →
      Begins (.punct ',' sp) r' r → InputText R os payload r' → InputText R ((name, none) :: os) payload ts
  | flagSemi {name : String} {r payload ts : List TT} (sp : Span) : NameText name r ts →
      Begins (.punct ';' sp) payload r → InputText R [(name, none)] payload ts
  | value {name : String} {l : OptLit} {os : List Opt} {r r' r1 r2 payload ts : List TT} (sp1 sp2 : Span) :
      NameText name r1 ts → Begins (.punct '=' sp1) r2 r1 → LitText R l r r2 → Begins (.punct ',' sp2) r' r →
      InputText R os payload r' → InputText R ((name, some l) :: os) payload ts
  | bare {name : String} {l : OptLit} {os : List Opt} {r r1 r2 payload ts : List TT} (sp : Span) :
      NameText name r1 ts → Begins (.punct '=' sp) r2 r1 → LitText R l r r2 →
      InputText R os payload r → InputText R ((name, some l) :: os) payload ts

/-- The limit an option sets. -/
def Opt.lines (o : Opt) : Option Nat :=
  match o.2 with
  | some (.int (some n)) => if o.1 = "excerpt_line" then some n else none
  | _ => none

/-- The truncation an option sets. -/
def Opt.trunc (o : Opt) : Option (Option Nat) :=
  if o.1 = "truncate_str" then
    match o.2 with
    | none => some none
    | some (.int (some n)) => some (some n)
    | _ => none
  else none

/-- The padding an option sets. -/
def Opt.padding (o : Opt) : Option OptPad :=
  if o.1 = "padding" then
    match o.2 with
    | none => some .both
    | some (.str s) =>
      if s = "top" then some .top
      else if s = "bottom" then some .bottom
      else if s = "both" then some .both
      else none
    | _ => none
  else none

/-- Whether an option asks for line numbers, whatever its value. -/
def Opt.lineNum (o : Opt) : Bool := o.1 = "show_line_num"

/-- A known option with an allowed value. -/
def Opt.valid (o : Opt) : Prop :=
  o.lines ≠ none ∨ o.trunc ≠ none ∨ o.lineNum = true ∨ o.padding ≠ none

/-- The last option that sets something. -/
def lastOpt {α : Type} (f : Opt → Option α) (os : List Opt) : Option α := os.reverse.findSome? f

/-- The meaning of options. -/
def meaning (os : List Opt) : OptArgs :=
  { maxLines := lastOpt Opt.lines os
    trunc := lastOpt Opt.trunc os
    lineNum := os.any Opt.lineNum
    padding := lastOpt Opt.padding os }

end Hooq
