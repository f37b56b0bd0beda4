import Verif.Model.Entry

/-!
# Where code may stand

The places where Rust has items, and what may stand there.
-/

namespace Hooq

/-- A place of an item with an attribute. -/
inductive Place
  | module | block | implBody | traitBody
deriving DecidableEq, Repr, Inhabited

/-- A `use` may stand there. -/
def Place.TakesUse : Place → Prop
  | .module | .block => True
  | .implBody | .traitBody => False

/-- The item may stand there.  In the body of an impl or a trait these are functions,
constants, macro calls, and what `member` says of the items whose text the model keeps as
it is (types). -/
def Place.Takes (pl : Place) (member : String → Prop) (i : Item) : Prop :=
  pl = .module ∨ pl = .block ∨
  match i with
  | .fn _ _ _ | .const_ _ _ _ | .mac _ _ => True
  | .other _ t => member t
  | _ => False

/-- What the macro returns may stand in the place.  A `compile_error!` call may stand
everywhere. -/
def Outcome.FitsAt (pl : Place) (member : String → Prop) : Outcome → Prop
  | .code uses o => (uses ≠ [] → pl.TakesUse) ∧ pl.Takes member o
  | .compileError _ => True
  | .panicked => True

end Hooq
