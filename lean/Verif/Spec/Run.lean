import Verif.Spec.RunHook
import Verif.Spec.Walk

/-!
# What happens when a function is run

Runs of expanded code, told on the generic tree.  A node runs parts of itself, in any order
and any number of times, and then gives a value, jumps out (`break`, `continue`), or leaves
the function.  Only `?`, `return`, hooks and the end of a body have a meaning of their own;
what all other nodes give is left open.  So there are more runs here than in Rust: whatever
holds for all of them holds in particular for those of Rust.
-/

namespace Hooq

/-- A value: a `Result`, or something else. -/
inductive Val (Ty : Nat → Type)
  | res (r : Res Ty)
  | other

/-- How the run of a node ends: with a value, with leaving the function, or with a jump to
an enclosing loop or block. -/
inductive Stop (Ty : Nat → Type)
  | val (v : Val Ty)
  | leave (v : Val Ty)
  | jump

/-- What runs depend on: what the libraries do at each hook, how `?` converts errors, and
what the nodes without a meaning of their own give and report, e.g. calls of other
functions. -/
structure Setting (Ty : Nat → Type) where
  world : HookData → World Ty
  conv : Dyn Ty → Dyn Ty → Prop
  gives : RTree → Val Ty → List (Report Ty) → Prop

/-- A hook on a value.  What is not a `Result` passes.  Of a hook that is not inserted behind
its operand nothing is known. -/
inductive Setting.Hook {Ty : Nat → Type} (S : Setting Ty) (helpers : List TT) (hk : HookData) :
    Val Ty → Val Ty → List (Report Ty) → Prop
  | res {r r' evs} (sc : Scope Ty) :
      hk.mode = .insert → Does (S.world hk) helpers (Locals.ofScope sc) hk.toks r r' evs → S.Hook helpers hk (.res r) (.res r') evs
  | other : S.Hook helpers hk .other .other []
  | unknown {v v' evs} : hk.mode ≠ .insert → S.Hook helpers hk v v' evs

/-- The hooks behind an operand, from the inside to the outside.  They only run if the
operand gives a value. -/
inductive Setting.Hooks {Ty : Nat → Type} (S : Setting Ty) (helpers : List TT) :
    List HookData → Stop Ty → Stop Ty → List (Report Ty) → Prop
  | nil {o} : S.Hooks helpers [] o o []
  | cons {hk hks v v' o e1 e2} : S.Hook helpers hk v v' e1 → S.Hooks helpers hks (.val v') o e2 →
      S.Hooks helpers (hk :: hks) (.val v) o (e1 ++ e2)
  | leave {hks v} : S.Hooks helpers hks (.leave v) (.leave v) []
  | jump {hks} : S.Hooks helpers hks .jump .jump []

/-- The function goes on after such an end of a part: always, except when the part left
it.  What the body of a closure or of an inner function does is not done by this function. -/
def Stop.goesOn {Ty : Nat → Type} (k : RTree) : Stop Ty → Prop
  | .leave _ => k.data.edge.fn ≠ none
  | _ => True

/-- The hooks that part `j` of a node gets from outside: what is written behind the node is
behind its last part. -/
def handDown (n : RTree) (hks : List HookData) (j : Nat) : List HookData :=
  if j + 1 = n.kids.length then hks else []

mutual

/-- Runs of a node behind which `hks` is written.  Hooks behind an operator expression like
`-x` or `return x` belong to its last part, those behind other nodes to the node. -/
inductive Setting.Runs {Ty : Nat → Type} (S : Setting Ty) (helpers : List TT) :
    RTree → List HookData → Stop Ty → List (Report Ty) → Prop
  | closed {n hks o o' e1 e2} : n.data.rear = .closed → Setting.Inside S helpers n [] o e1 →
      S.Hooks helpers (n.marks.map Prod.fst ++ hks) o o' e2 → Setting.Runs S helpers n hks o' (e1 ++ e2)
  | open_ {n hks o e1} : n.data.rear ≠ .closed → Setting.Inside S helpers n (n.marks.map Prod.fst ++ hks) o e1 →
      Setting.Runs S helpers n hks o e1

/-- Runs of some parts of a node, one after the other, such that the node goes on. -/
inductive Setting.Parts {Ty : Nat → Type} (S : Setting Ty) (helpers : List TT) :
    RTree → List HookData → List (Report Ty) → Prop
  | nil {n hks} : Setting.Parts S helpers n hks []
  | step {n hks j k o e1 e2} : Setting.Parts S helpers n hks e1 → n.kids[j]? = some k →
      Setting.Runs S helpers k (handDown n hks j) o e2 → o.goesOn k → Setting.Parts S helpers n hks (e1 ++ e2)

/-- Runs of a node without the hooks behind it.  `?` leaves the function with the converted
error, or with something that is no `Result`; `return` leaves it with its value. -/
inductive Setting.Inside {Ty : Nat → Type} (S : Setting Ty) (helpers : List TT) :
    RTree → List HookData → Stop Ty → List (Report Ty) → Prop
  | gives {n hks v e1 e2} : n.data.tag ≠ .ret → Setting.Parts S helpers n hks e1 → S.gives n v e2 →
      Setting.Inside S helpers n hks (.val v) (e1 ++ e2)
  | jump {n hks e1} : Setting.Parts S helpers n hks e1 → Setting.Inside S helpers n hks .jump e1
  | leave {n hks j k v e1 e2} : Setting.Parts S helpers n hks e1 → n.kids[j]? = some k → k.data.edge.fn = none →
      Setting.Runs S helpers k (handDown n hks j) (.leave v) e2 → Setting.Inside S helpers n hks (.leave v) (e1 ++ e2)
  | question {n hks q j k e e' e1 e2} : n.data.tag = .question q false → Setting.Parts S helpers n hks e1 →
      n.kids[j]? = some k → Setting.Runs S helpers k (handDown n hks j) (.val (.res (.err e))) e2 → S.conv e e' →
      Setting.Inside S helpers n hks (.leave (.res (.err e'))) (e1 ++ e2)
  | questionOther {n hks q e1} : n.data.tag = .question q false → Setting.Parts S helpers n hks e1 →
      Setting.Inside S helpers n hks (.leave .other) e1
  | ret {n hks j k v e1 e2} : n.data.tag = .ret → Setting.Parts S helpers n hks e1 → n.kids[j]? = some k →
      Setting.Runs S helpers k (handDown n hks j) (.val v) e2 → Setting.Inside S helpers n hks (.leave v) (e1 ++ e2)
  | retUnit {n hks e1} : n.data.tag = .ret → Setting.Parts S helpers n hks e1 →
      Setting.Inside S helpers n hks (.leave .other) e1

end

/-- A call of the function whose node is `f`: what it returns and reports.  The value is that
of the last statement, if this has no semicolon (which for macros the tree does not say), or
one with which a statement leaves the function. -/
inductive Setting.Call {Ty : Nat → Type} (S : Setting Ty) (helpers : List TT) (f : RTree) : Val Ty → List (Report Ty) → Prop
  | tail {k v e1 e2} : S.Parts helpers f [] e1 → f.kids.getLast? = some k →
      k.data.edge.tail ≠ none ∨ k.data.tag = .mac → S.Runs helpers k [] (.val v) e2 → S.Call helpers f v (e1 ++ e2)
  | leave {k v e1 e2} : S.Parts helpers f [] e1 → k ∈ f.kids → S.Runs helpers k [] (.leave v) e2 →
      S.Call helpers f v (e1 ++ e2)
  | unit {e1} : S.Parts helpers f [] e1 → S.Call helpers f .other e1

end Hooq
