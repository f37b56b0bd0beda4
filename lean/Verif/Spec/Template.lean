import Verif.Spec.Scope

/-!
# Shapes of templates
-/

namespace Hooq

mutual
/-- No `$` occurs in the token, at any depth. -/
def TT.NoDollar : TT → Prop
  | .punct c _ => c ≠ '$'
  | .group _ ts _ => NoDollars ts
  | _ => True
/-- No `$` occurs in the tokens, at any depth. -/
def NoDollars : List TT → Prop
  | [] => True
  | t :: ts => t.NoDollar ∧ NoDollars ts
end

mutual
/-- The token without positions: its text. -/
def TT.unspan : TT → TT
  | .ident s _ => .ident s .callSite
  | .punct c _ => .punct c .callSite
  | .lit l _ => .lit l .callSite
  | .group d ts _ => .group d (unspans ts) .callSite
  | .exprHole _ => .exprHole .callSite
  | .sourceHole _ => .sourceHole .callSite
  | .valueHole v _ => .valueHole v .callSite
  | .bindingsHole l _ => .bindingsHole l .callSite
  | .metaHole m _ => .metaHole m .callSite
/-- The tokens without positions. -/
def unspans : List TT → List TT
  | [] => []
  | t :: ts => t.unspan :: unspans ts
end

/-- Somewhere in the tokens, at any depth, a `$` is directly followed by a token with
property `P`. -/
inductive DollarThen (P : TT → Prop) : List TT → Prop
  | here {sp : Span} {t : TT} {rest : List TT} : P t → DollarThen P (.punct '$' sp :: t :: rest)
  | later {t : TT} {rest : List TT} : DollarThen P rest → DollarThen P (t :: rest)
  | inside {d : Delim} {ts rest : List TT} {sp : Span} :
      DollarThen P ts → DollarThen P (.group d ts sp :: rest)

/-- The token is an identifier. -/
def TT.IsIdent (t : TT) : Prop := ∃ x sp, t = .ident x sp

/-- The token is the identifier `x`. -/
def TT.IsName (x : String) (t : TT) : Prop := ∃ sp, t = .ident x sp

/-- `.` of an inserted method, with its own position. -/
def Method.lead : Method → List TT
  | .insert dot _ _ => [.punct '.' dot]
  | .replace _ _ => []

mutual
/-- The hooks on the nodes that share the first token of a node, the node itself left
out. -/
def RTree.headMarks : RTree → List (HookData × RTree)
  | .mk d _ ks => if d.leftmost then RTree.headMarksOf ks else []
/-- The hooks of the first tree and of the nodes that share its first token. -/
def RTree.headMarksOf : List RTree → List (HookData × RTree)
  | [] => []
  | k :: _ => k.marks ++ k.headMarks
end

/-- The declared return type of a function or closure. -/
def FnEntry.output : FnEntry → RetType
  | .fn sig => sig.output
  | .closure sig => sig.output

/-- The declared return type is a path that ends in one of the names. -/
def RetType.EndsIn (r : RetType) (l : List String) : Prop :=
  ∃ p g, r = .path p ∧ p.segs.getLast? = some g ∧ g.ident ∈ l

end Hooq
