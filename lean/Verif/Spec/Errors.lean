import Verif.Spec.AttrForm
import Verif.Spec.Expand

/-!
# When an expansion fails
-/

namespace Hooq

/-- The text of a method re-parses around an operand with the given end. -/
def Reparses (env : Env) (m : Method) (rear : Rear) (toks : List TT) : Prop :=
  match m with
  | .insert dot _ _ => rear ≠ .stuck ∧ ∃ re, env.insertRear (.punct '.' dot :: toks) = some re
  | .replace _ _ => ∃ sh, env.replaceShape rear toks = some sh

/-- The template of the method in force can be expanded for the target and the result
re-parses. -/
def CanHook (env : Env) (s : Settings) (up : List Data) (k : Kind) (sp : Span) (n : Nat)
    (rear : Rear) : Prop :=
  ∃ out, StackText (siteAt env s up k sp n) (methodStack env s up) out ∧
    Reparses env (methodAt env s up) rear (out.map (TT.setSpan sp))

/-- The node, read without its trailing hook, is `t1` after its parts are processed. -/
def BuiltTo (env : Env) (n t1 : RTree) : Prop :=
  ∃ hd kids' c1 c2 c3, gopen (n.data.opens hd.ctx) n.kids (gwalkList env hd.ctx n.kids) c1 = .ok (kids', c2) ∧
    gtarget env hd n.data n.kids kids' c2 = .ok (t1, c3)

/-- Why processing stops at the node `n` below the nodes `up`: an attribute is
malformed, or a hook that is to be inserted there cannot be built. -/
inductive Fails (env : Env) (s : Settings) (n : RTree) (up : List Data) : Prop
  | attr (a : Attr) : a ∈ n.data.seen → ¬ AttrOk env a → Fails env s n up
  | question (q : Span) (cnt : Nat) (k k' : RTree) (ctx : Ctx) (c c' : Counter) :
      n.data.tag = .question q false → n.kids = [k] → gwalk env ctx k c = .ok (k', c') →
      hookedAt env s (n.data :: up) .question = true →
      ¬ CanHook env s (n.data :: up) .question q cnt k'.rear → Fails env s n up
  | ret (cnt : Nat) (k k' : RTree) (ctx : Ctx) (c c' : Counter) :
      n.data.tag = .ret → n.kids = [k] → gwalk env ctx k c = .ok (k', c') →
      returnWanted env s (n.data :: up) k'.callee = true →
      hookedAt env s (n.data :: up) .ret = true →
      ¬ CanHook env s (n.data :: up) .ret n.data.span cnt k'.rear → Fails env s n up
  | tail (tk : TailKind) (cnt : Nat) (t1 : RTree) :
      n.data.edge.tail = some tk → n.data.mode ≠ .untouched → BuiltTo env n t1 →
      tailWanted env s (n.data :: up) tk t1.callee = true →
      hookedAt env s (n.data :: up) .tail = true →
      ¬ CanHook env s (n.data :: up) .tail t1.start cnt t1.rear → Fails env s n up

/-- Every template expansion of the method, at whatever target, exists and re-parses
after an operand that can carry a method, and the result can carry a method again. -/
def MethodWorks (env : Env) (m : Method) (b : String → Option Value) : Prop :=
  ∀ v : Site, v.binding = b → ∃ out, StackText v [m] out ∧
    match m with
    | .insert dot _ _ =>
      ∃ re, env.insertRear (.punct '.' dot :: out.map (TT.setSpan v.span)) = some re ∧ re ≠ .stuck
    | .replace _ _ => ∀ rear, rear ≠ .stuck →
      ∃ sh, env.replaceShape rear (out.map (TT.setSpan v.span)) = some sh ∧ sh ≠ .other .stuck

/-- The expressions at which the node would be hooked can carry a method call: they do
not end in a type or in an open range or keyword. -/
def Attachable (n : RTree) : Prop :=
  ((∃ q b, n.data.tag = .question q b) ∨ n.data.tag = .ret → ∀ k ∈ n.kids, k.rear ≠ .stuck) ∧
  (n.data.edge.tail ≠ none → n.rear ≠ .stuck)

/-- The method in force at the position is an insertion that expands and re-parses for
every target there, and the result can carry a method again. -/
def WorksAt (env : Env) (s : Settings) (up : List Data) : Prop :=
  ∃ dot ts exc, methodAt env s up = .insert dot ts exc ∧
    ∀ k sp n, ∃ out, StackText (siteAt env s up k sp n) (methodStack env s up) out ∧
      ∃ re, env.insertRear (.punct '.' dot :: out.map (TT.setSpan sp)) = some re ∧ re ≠ .stuck

/-- The node `n` below the nodes `up` is to be hooked at an expression that, as written,
cannot carry a method call. -/
inductive Blocked (env : Env) (s : Settings) (n : RTree) (up : List Data) : Prop
  | question (q : Span) (k : RTree) : n.data.tag = .question q false → n.kids = [k] →
      hookedAt env s (n.data :: up) .question = true → k.rear = .stuck → Blocked env s n up
  | ret (k : RTree) : n.data.tag = .ret → n.kids = [k] →
      hookedAt env s (n.data :: up) .ret = true →
      returnWanted env s (n.data :: up) k.callee = true → k.rear = .stuck → Blocked env s n up
  | tail (tk : TailKind) : n.data.edge.tail = some tk → n.data.mode ≠ .untouched →
      hookedAt env s (n.data :: up) .tail = true →
      tailWanted env s (n.data :: up) tk n.callee = true → n.rear = .stuck → Blocked env s n up

/-- A position is in order: its attributes are, and the method works where it is to be
used. -/
def InOrder (env : Env) (s : Settings) (d : Data) (up : List Data) : Prop :=
  (∀ a ∈ d.seen, AttrOk env a) ∧ ((∃ k, hookedAt env s (d :: up) k = true) → WorksAt env s (d :: up))

/-- All positions in a tree that are reached are in order. -/
def AllInOrder (env : Env) (s : Settings) (t : RTree) (up0 : List Data) : Prop :=
  ∀ p d up, t.upFrom up0 p = some (d :: up) → reached env s (d :: up) = true → InOrder env s d up

/-- Somewhere in the tree a hook cannot be attached. -/
def BlockedIn (env : Env) (s : Settings) (t : RTree) (up0 : List Data) : Prop :=
  ∃ p n up, t.sub p = some n ∧ t.upFrom up0 p = some (n.data :: up) ∧
    reached env s (n.data :: up) = true ∧ Blocked env s n up

end Hooq
