import Verif.Spec.Position
import Verif.Spec.Walk

/-!
# Targets in the order in which they are completed
-/

namespace Hooq

mutual
/-- All positions of a tree, children before their parent, from left to right. -/
def RTree.postorder : RTree → List (List Nat)
  | .mk _ _ ks => postorderFrom 0 ks ++ [[]]
/-- All positions of the trees, the first of which has index `n`. -/
def postorderFrom (n : Nat) : List RTree → List (List Nat)
  | [] => []
  | k :: ks => k.postorder.map (n :: ·) ++ postorderFrom (n + 1) ks
end

/-- The position `p` of `t` is a target of kind `k` that takes a number: it is reached,
not skipped, and of the kind; whether a `return` or a trailing expression is wanted
depends on its processed value in `t'`.  The switch `hook_targets` plays no role.
`acc` are the nodes around `t`. -/
def numbered (env : Env) (s : Settings) (acc : List Data) (t t' : RTree) (k : Kind) (p : List Nat) :
    Bool :=
  match t.upFrom acc p, t'.sub p with
  | some (d :: up), some n' => reached env s (d :: up) && !skippedAt (d :: up) && (match k with
    | .question => (match d.tag with
      | .question _ _ => true
      | _ => false)
    | .ret => d.tag == .ret && (match n'.kids with
      | v :: _ => returnWanted env s (d :: up) v.bare.callee
      | [] => false)
    | .tail => (match d.edge.tail with
      | some tk => d.mode != .untouched && tailWanted env s (d :: up) tk n'.bare.callee
      | none => false))
  | _, _ => false

/-- The hooks of kind `k` that belong to the target at `p` of the output `t'`: on the
operand for `?` and `return`, on the node itself for a trailing expression. -/
def hooksOf (t' : RTree) (k : Kind) (p : List Nat) : List HookData :=
  match t'.sub (match k with | .tail => p | _ => p ++ [0]) with
  | some n' => n'.hooks.filter fun hk => hk.kind == k
  | none => []

end Hooq
