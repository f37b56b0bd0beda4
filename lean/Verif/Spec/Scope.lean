import Verif.Spec.Expand

/-!
# Nearest enclosing annotated node, target chains, scopes
-/

namespace Hooq

/-- What the nearest enclosing node (the node itself included) that says something
about a setting says; on one node the last attribute counts. -/
def nearest {β : Type} (f : Attr → Option β) (up : List Data) : Option β :=
  up.findSome? fun d => (d.seen.reverse).findSome? f

/-- The chain of the target a hook on a node belongs to: a tail hook is on the target,
the others are on the operand of the target. -/
def targetUp (k : Kind) (up : List Data) : List Data :=
  match k with
  | .tail => up
  | _ => up.tail

/-- The anchor token of a target: the `?`, the `return`, or the first token of the
(processed) trailing expression. -/
def IsAnchor (up : List Data) (n' : RTree) (k : Kind) (sp : Span) : Prop :=
  match k, up with
  | .tail, _ => sp = n'.bare.start
  | .question, _ :: d :: _ => ∃ b, d.tag = .question sp b
  | .ret, _ :: d :: _ => d.tag = .ret ∧ sp = d.span
  | _, _ => False

/-- No scope is entered along these nodes. -/
def SameScope (l : List Data) : Prop := ∀ d ∈ l, d.edge.scope = false

/-- No node of the list carries a skip attribute. -/
def NoSkip (l : List Data) : Prop :=
  ∀ d ∈ l, d.seen.any Meta.isSkip = false ∧ d.seen.any Meta.isSkipAll = false

/-- Is the node a `?`? -/
def Tag.isQuestion : Tag → Bool
  | .question _ _ => true
  | _ => false

end Hooq
