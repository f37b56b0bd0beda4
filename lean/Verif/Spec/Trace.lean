import Verif.Spec.Run

/-!
# Programs of several functions, and the trace of an error
-/

namespace Hooq

/-- A program: its functions, the node of each in the expanded item it is from, what else
the functions depend on (see `Setting`), and which nodes of a function call which function.
What `setting` says nodes give is what they give without calling functions of the program. -/
structure Program (Ty : Nat → Type) where
  Fn : Type
  node : Fn → RTree
  helpers : Fn → List TT
  setting : Fn → Setting Ty
  calls : Fn → RTree → Fn → Prop

/-- What a function depends on when calls are nested at most so deep: a node that calls a
function gives what this returns and reports what it reports. -/
def Program.depth {Ty : Nat → Type} (P : Program Ty) : Nat → P.Fn → Setting Ty
  | 0, f => P.setting f
  | k + 1, f =>
    { P.setting f with
      gives := fun n v evs => (P.setting f).gives n v evs ∨
        ∃ g, P.calls f n g ∧ (P.depth k g).Call (P.helpers g) (P.node g) v evs }

/-- A function may return this, having reported that. -/
def Program.Returns {Ty : Nat → Type} (P : Program Ty) (f : P.Fn) (v : Val Ty) (evs : List (Report Ty)) : Prop :=
  ∃ k, (P.depth k f).Call (P.helpers f) (P.node f) v evs

/-- The trace of an error: first what was reported where it came from, then, function by
function outwards, what is shown there.  `shown f n e0 e evs` is for a node `n` of `f` that
gives `e0` and the error `e` with which `f` returns then. -/
inductive Program.Trace {Ty : Nat → Type} (P : Program Ty)
    (shown : P.Fn → RTree → Dyn Ty → Dyn Ty → List (Report Ty) → Prop) : P.Fn → Dyn Ty → List (Report Ty) → Prop
  | origin {f n e0 e evs0 evs} : (P.setting f).gives n (.res (.err e0)) evs0 → shown f n e0 e evs →
      P.Trace shown f e (evs0 ++ evs)
  | through {f n g e0 e evs0 evs} : P.calls f n g → P.Trace shown g e0 evs0 → shown f n e0 e evs →
      P.Trace shown f e (evs0 ++ evs)

/-- One or more reports in a row: the first is `first`, the others are `later`. -/
inductive ShownBy {Ty : Nat → Type} (first later : Dyn Ty → Dyn Ty → List (Report Ty) → Prop) :
    Dyn Ty → Dyn Ty → List (Report Ty) → Prop
  | one {e e1 ev} : first e e1 ev → ShownBy first later e e1 ev
  | more {e e1 e2 ev1 ev2} : ShownBy first later e e1 ev1 → later e1 e2 ev2 → ShownBy first later e e2 (ev1 ++ ev2)

/-- Where an error in a function comes from: a node of the function gave it, a function that
is called returned it, or `?` or a hook (`step`) made it of another one. -/
inductive Program.Stems {Ty : Nat → Type} (P : Program Ty) (step : P.Fn → Dyn Ty → Dyn Ty → Prop) : P.Fn → Dyn Ty → Prop
  | given {f n e evs} : (P.setting f).gives n (.res (.err e)) evs → P.Stems step f e
  | call {f n g e} : P.calls f n g → P.Stems step g e → P.Stems step f e
  | conv {f e e'} : P.Stems step f e → (P.setting f).conv e e' → P.Stems step f e'
  | hook {f e e'} : P.Stems step f e → step f e e' → P.Stems step f e'

end Hooq
