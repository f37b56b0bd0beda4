import Verif.Model.OptPlace
import Verif.Spec.ExcerptArgs

/-!
# Where an error of an excerpt macro belongs
-/

namespace Hooq

/-- An option, then `r`. -/
inductive OneOpt {E : Type} (R : OptReader E) : Opt → (r ts : List TT) → Prop
  | flag {name : String} {r ts : List TT} : NameText name r ts →
      (∃ c sp r', (c = ',' ∨ c = ';') ∧ Begins (.punct c sp) r' r) → OneOpt R (name, none) r ts
  | value {name : String} {l : OptLit} {r r1 r2 ts : List TT} (sp : Span) : NameText name r1 ts →
      Begins (.punct '=' sp) r2 r1 → LitText R l r r2 → OneOpt R (name, some l) r ts

/-- Options, with commas or without, then `us`. -/
inductive Options {E : Type} (R : OptReader E) : List Opt → (us ts : List TT) → Prop
  | nil (ts : List TT) : Options R [] ts ts
  | comma {o : Opt} {os : List Opt} {r r' us ts : List TT} (sp : Span) : OneOpt R o r ts →
      Begins (.punct ',' sp) r' r → Options R os us r' → Options R (o :: os) us ts
  | bare {o : Opt} {os : List Opt} {r us ts : List TT} : OneOpt R o r ts →
      (∀ sp r', ¬ Begins (.punct ',' sp) r' r) → Options R os us r → Options R (o :: os) us ts

/-- The text of the expression behind the options. -/
inductive OptPayload {E : Type} (R : OptReader E) : (payload us : List TT) → Prop
  | semi {payload us : List TT} (sp : Span) : Begins (.punct ';' sp) payload us → OptPayload R payload us
  | rest {us : List TT} : (∀ sp r, ¬ Begins (.punct ';' sp) r us) → (∀ o r, ¬ OneOpt R o r us) → OptPayload R us us

/-- Where the error of the input `ts` belongs.  Only allowed options stand in front of it. -/
inductive OptShown {E : Type} (R : OptSpans E) (ts : List TT) : OptErr → ErrPlace → Prop
  /-- A name that is not known: the whole call. -/
  | unknown {name : String} {v : Option OptLit} {os : List Opt} {r us : List TT} : Options R.toOptReader os us ts →
      (∀ o ∈ os, o.valid) → OneOpt R.toOptReader (name, v) r us →
      name ∉ ["excerpt_line", "truncate_str", "show_line_num", "padding"] → OptShown R ts .unknown .root
  /-- A value that is missing: the whole call. -/
  | missing {os : List Opt} {r us : List TT} : Options R.toOptReader os us ts → (∀ o ∈ os, o.valid) →
      OneOpt R.toOptReader ("excerpt_line", none) r us → OptShown R ts .missing .root
  /-- A value that is not allowed: there. -/
  | value {name : String} {l : OptLit} {os : List Opt} {r r1 r2 r3 us : List TT} {t : TT} (sp : Span) :
      Options R.toOptReader os us ts → (∀ o ∈ os, o.valid) → name ∈ ["excerpt_line", "truncate_str", "padding"] →
      NameText name r1 us → Begins (.punct '=' sp) r2 r1 → LitText R.toOptReader l r r2 → ¬ Opt.valid (name, some l) →
      Begins t r3 r2 → OptShown R ts .value (.token t.span)
  /-- What should be an expression. -/
  | expr {os : List Opt} {payload us : List TT} : Options R.toOptReader os us ts → (∀ o ∈ os, o.valid) →
      OptPayload R.toOptReader payload us → R.expr payload = none → OptShown R ts .expr (R.fault payload)

end Hooq
