import Verif.Model.Mask

/-!
# What is expected of masking
-/

namespace Hooq

/-- The text does not overlap with itself: no part is both its beginning and its end. -/
def Unbordered (y : List Char) : Prop := ∀ z, z ≠ [] → z <+: y → z <:+ y → z = y

/-- What a mode writes. -/
def MaskMode.written (root : List Char) : MaskMode → List Char
  | .mask => "<hooq_root>".toList
  | .unMask => root

/-- The other mode. -/
def MaskMode.other : MaskMode → MaskMode
  | .mask => .unMask
  | .unMask => .mask

/-- The path names a file directly in a directory whose name ends in `.expanded.rs`. -/
def IsExpandedIn (target : String) (p : String) : Prop :=
  ∃ stem : String, '/' ∉ stem.toList ∧ p = target ++ "/" ++ stem ++ ".expanded.rs"

end Hooq
