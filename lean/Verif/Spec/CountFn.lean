import Verif.Spec.Count

/-!
# Positions before a part of the code
-/

namespace Hooq

/-- The position `q` stands before the part at `f`: where the two paths part, `q` goes further
to the left.  The nodes around `f` and those inside it do not stand before it. -/
def standsBefore : List Nat → List Nat → Bool
  | a :: q, b :: f => decide (a < b) || (a == b && standsBefore q f)
  | _, _ => false

end Hooq
