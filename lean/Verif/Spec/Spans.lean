import Verif.Spec.Position

/-!
# The tokens of a text
-/

namespace Hooq

mutual
/-- The tokens inside a group, at any depth. -/
def TT.inside : TT → List TT
  | .group _ ts _ => tokensOf ts
  | _ => []
/-- All tokens of a text, at any depth. -/
def tokensOf : List TT → List TT
  | [] => []
  | t :: ts => t :: (t.inside ++ tokensOf ts)
end

/-- Is it a group? -/
def TT.IsGroup (t : TT) : Prop := ∃ d ts sp, t = .group d ts sp

/-- A splice: it stands for code, whose tokens keep the spans they have there.  Their
spans are not described. -/
def TT.IsSplice : TT → Prop
  | .exprHole _ | .sourceHole _ | .valueHole _ _ | .bindingsHole _ _ | .metaHole _ _ => True
  | _ => False

/-- Where a token inside a group of an inserted text comes from: it is a splice, or
written as it is in one of the methods, or made by the macro, and then it has the span of
the macro call.  Groups are always made by the macro. -/
def MadeFrom (methods : List Method) (u : TT) : Prop :=
  u.IsSplice ∨ (u.IsGroup ∨ (∃ l sp, u = .lit l sp)) ∧ u.span = .callSite ∨
    ¬ u.IsGroup ∧ ∃ m ∈ methods, u ∈ tokensOf m.template

mutual
/-- The token with the span of the macro call on every group. -/
def TT.regrouped : TT → TT
  | .group d ts _ => .group d (regroup ts) .callSite
  | t => t
/-- The text with the span of the macro call on every group. -/
def regroup : List TT → List TT
  | [] => []
  | t :: ts => t.regrouped :: regroup ts
end

end Hooq
