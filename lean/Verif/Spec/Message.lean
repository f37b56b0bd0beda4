import Verif.Spec.FirstError
import Verif.Spec.Template

/-!
# What error messages show and where they point
-/

namespace Hooq

/-- `l` is one of the lines of the text: it contains no line break, and is enclosed by line
breaks once there is one at both ends of the text. -/
def HasLine (text l : String) : Prop :=
  '\n' ∉ l.toList ∧
    ∃ a b, '\n' :: text.toList ++ ['\n'] = a ++ '\n' :: (l.toList ++ '\n' :: b)

/-- The text is a single line. -/
def OneLine (text : String) : Prop := '\n' ∉ text.toList

/-- An error of a template. -/
def Err.InTemplate : Err → Prop
  | .afterDollar _ | .noSoFar _ | .unknownVar .. => True
  | _ => False

/-- What an error of a template reports at a target below `up`: it points at the token after
a `$` in the method in force there or in one that it overrides. -/
inductive PointsAt (env : Env) (s : Settings) (up : List Data) : Err → Prop
  /-- The token is not a name. -/
  | after {m : Method} {t : TT} : m ∈ methodStack env s up → ¬ t.IsIdent →
      DollarThen (· = t) m.template → PointsAt env s up (.afterDollar t.span)
  /-- It is `so_far`, in the method that overrides none. -/
  | soFar {pre : List Method} {m : Method} {x : String} {sp : Span} :
      methodStack env s up = pre ++ [m] → MetaVar.Named .soFar x →
      DollarThen (· = .ident x sp) m.template → PointsAt env s up (.noSoFar sp)
  /-- It is a name that is neither built in nor bound at the target; the bound ones are
  shown in alphabetical order. -/
  | unknown {m : Method} {x : String} {l : List String} {sp : Span} :
      m ∈ methodStack env s up → DollarThen (· = .ident x sp) m.template →
      (∀ v, ¬ MetaVar.Named v x) → bindingAt env s x up = none →
      l.Pairwise (· < ·) → (∀ y, y ∈ l ↔ bindingAt env s y up ≠ none) →
      PointsAt env s up (.unknownVar x l sp)

/-- The name under which a built-in is shown. -/
def ShownAs (v : MetaVar) (x : String) : Prop := ∃ others, (v, x :: others) ∈ metaVarNames

end Hooq
