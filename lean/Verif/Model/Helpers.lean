import Verif.Model.Token

/-!
# The run-time helpers

`/repo/hooq-helpers/src/lib.rs`, and the code that `$bindings` and `$hooq_meta` expand
to.  Running the user's code is not modelled: the value of an expression is a parameter.
-/

namespace Hooq

/-- A value of unknown type (`Rc<dyn Any>`, standard library): its type, by `TypeId`, and
the value.  `Ty` gives the values of each type.
For /repo/hooq-helpers/src/lib.rs:17-52. -/
structure Dyn (Ty : Nat → Type) where
  ty : Nat
  val : Ty ty

/-- `Rc::downcast` (standard library).
For /repo/hooq-helpers/src/lib.rs:17-52. -/
def Dyn.downcast {Ty : Nat → Type} (t : Nat) (d : Dyn Ty) : Option (Ty t) :=
  if h : d.ty = t then some (h ▸ d.val) else none

/-- `BindingPayload`, /repo/hooq-helpers/src/lib.rs:17-20. -/
structure Payload (Ty : Nat → Type) where
  expr : String
  value : Dyn Ty

/-- `HooqMeta`, /repo/hooq-helpers/src/lib.rs:32-41.  `source_str` is left out, as in
`MetaRec`. -/
structure HooqMeta (Ty : Nat → Type) where
  line : Nat
  column : Nat
  path : String
  file : String
  count : String
  bindings : AMap (Payload Ty)

/-- `HooqMeta::get_binding`, /repo/hooq-helpers/src/lib.rs:43-52. -/
def HooqMeta.getBinding {Ty : Nat → Type} (m : HooqMeta Ty) (t : Nat) (key : String) : Option (Ty t) :=
  match m.bindings.get? key with
  | none => none
  | some p => p.value.downcast t

/-- The local variables in sight of an expression.
For /repo/hooq-macros/src/impls/method/render/mod.rs:186-211. -/
abbrev Scope (Ty : Nat → Type) := String → Option (Dyn Ty)

/-- The scope after `let x = d;`.
For /repo/hooq-macros/src/impls/method/render/mod.rs:186-211. -/
def Scope.bind {Ty : Nat → Type} (sc : Scope Ty) (x : String) (d : Dyn Ty) : Scope Ty :=
  fun y => if y = x then some d else sc y

/-- The value of the expansion of `$bindings`, `get_bindings_token_stream`,
/repo/hooq-macros/src/impls/method/render/mod.rs:186-211: `HashMap::from` an array of
pairs of a key and a payload.  The payload of a value `v` is made by the block
`{ let expr = ToString::to_string("text of v"); let value = Rc::new(v); BindingPayload {
expr, value } }`, so `v` is evaluated with a variable `expr` that holds its own text.
`eval` evaluates an expression in a scope, `str` is a string as a value. -/
def runBindings {Ty : Nat → Type} (eval : Scope Ty → Value → Dyn Ty) (str : String → Dyn Ty)
    (sc : Scope Ty) (l : List (String × Value)) : AMap (Payload Ty) :=
  AMap.extend [] (l.map fun p => (p.1, ⟨p.2.text, eval (sc.bind "expr" (str p.2.text)) p.2⟩))

/-- The value of the expansion of `$hooq_meta` in a scope,
/repo/hooq-macros/src/impls/method/render/mod.rs:297-317. -/
def runMeta {Ty : Nat → Type} (eval : Scope Ty → Value → Dyn Ty) (str : String → Dyn Ty)
    (sc : Scope Ty) (r : MetaRec) : HooqMeta Ty :=
  { line := r.line, column := r.col, path := r.path, file := r.file, count := r.count
    bindings := runBindings eval str sc r.bindings }

end Hooq
