import Verif.Model.Attr

/-!
# Hook context

/repo/hooq-macros/src/impls/inert_attr/context.rs and
/repo/hooq-macros/src/impls/utils/function_info.rs.
-/

namespace Hooq

/-- `LocalContextField`, /repo/hooq-macros/src/impls/inert_attr/context.rs:65-72:
the current value and the chain of overridden ancestors, nearest first; with `new`,
`get_overridden_ancestor` and `deref` (context.rs:74-80, 93-104). -/
structure Field (α : Type) where
  val : α
  anc : List α := []
deriving Repr, Inhabited

/-- `LocalContextField::from_parent`,
/repo/hooq-macros/src/impls/inert_attr/context.rs:82-91. -/
def Field.fromParent {α : Type} (v : Option α) (parent : Field α) : Field α :=
  match v with
  | some v => { val := v, anc := parent.val :: parent.anc }
  | none => parent

/-- `SkipStatus`, /repo/hooq-macros/src/impls/inert_attr/context.rs:129-133. -/
inductive Skip
  | sameScope | all
deriving DecidableEq, Repr, Inhabited

/-- `FunctionInfo`, /repo/hooq-macros/src/impls/utils/function_info.rs:10-14, 46-50. -/
inductive FnInfo
  | function (sig : Sig)
  | closure (sig : CSig) (name : String)
deriving DecidableEq, Repr, Inhabited

/-- `FunctionInfo::name`, /repo/hooq-macros/src/impls/utils/function_info.rs:59-64. -/
def FnInfo.name : FnInfo → String
  | .function s => s.ident
  | .closure _ n => n

/-- `FunctionInfo::sig`, /repo/hooq-macros/src/impls/utils/function_info.rs:66-71. -/
def FnInfo.sigText : FnInfo → String
  | .function s => s.text
  | .closure c _ => c.text

/-- Declared return type, /repo/hooq-macros/src/impls/utils/function_info.rs:73-78. -/
def FnInfo.output : FnInfo → RetType
  | .function s => s.output
  | .closure c _ => c.output

/-- `return_type_is_result_inner`,
/repo/hooq-macros/src/impls/utils/function_info.rs:83-91. -/
def RetType.isResult (r : RetType) (resultTypes : List String) : Bool :=
  match r with
  | .path p => resultTypes.any fun s => p.isEndOf s
  | _ => false

/-- `LocalContext`, /repo/hooq-macros/src/impls/inert_attr/context.rs:170-184.
Simplification: the ancestor chain is kept only for `method` and `fn_info`, the
only two fields whose ancestors are ever read.  The shared counter is the state of
the walk. -/
structure Ctx where
  method : Field Method
  targets : Targets
  tailIdents : List String
  ignoreIdents : List String
  resultTypes : List String
  hookInMacros : Bool
  bindings : AMap Value
  skip : Option Skip
  fnInfo : Field (Option FnInfo)
deriving Repr, Inhabited

/-- `HookContext::new`, /repo/hooq-macros/src/impls/inert_attr/context.rs:192-222. -/
def Ctx.new (s : Settings) : Ctx where
  method := { val := s.method }
  targets := s.targets
  tailIdents := s.tailIdents
  ignoreIdents := s.ignoreIdents
  resultTypes := s.resultTypes
  hookInMacros := s.hookInMacros
  bindings := s.bindings
  skip := none
  fnInfo := { val := none }

/-- `InertAttribute::get_skip_status`,
/repo/hooq-macros/src/impls/inert_attr/mod.rs:25-31. -/
def Inert.skipStatus (i : Inert) : Option Skip :=
  if i.skipAll then some .all
  else if i.skip then some .sameScope
  else none

/-- `HookContext::updated_by_inert_attr`,
/repo/hooq-macros/src/impls/inert_attr/context.rs:224-283, with
`merged_from_parent` (context.rs:106-127) for bindings. -/
def Ctx.update (c : Ctx) (i : Inert) : Ctx where
  method := Field.fromParent i.method c.method
  targets := i.targets.getD c.targets
  tailIdents := i.tailIdents.getD c.tailIdents
  ignoreIdents := i.ignoreIdents.getD c.ignoreIdents
  resultTypes := i.resultTypes.getD c.resultTypes
  hookInMacros := i.hookInMacros.getD c.hookInMacros
  bindings := if i.bindings.isEmpty then c.bindings else c.bindings.extend i.bindings
  skip := match i.skipStatus with
    | some s => some s
    | none => c.skip
  fnInfo := c.fnInfo

/-- `HookContext::for_sub_scope_context`,
/repo/hooq-macros/src/impls/inert_attr/context.rs:298-314. -/
def Ctx.subScope (c : Ctx) : Ctx :=
  { c with skip := match c.skip with
    | some .all => some .all
    | _ => none }

/-- `HookContext::update_fn_info`,
/repo/hooq-macros/src/impls/inert_attr/context.rs:316-319. -/
def Ctx.updateFn (c : Ctx) (f : FnInfo) : Ctx :=
  { c with fnInfo := Field.fromParent (some (some f)) c.fnInfo }

/-- The search of `ClosureInfo::new` for the nearest enclosing function,
/repo/hooq-macros/src/impls/utils/function_info.rs:25-37. -/
def nearestFn : List (Option FnInfo) → Option String
  | [] => none
  | some (.function s) :: _ => some s.ident
  | _ :: rest => nearestFn rest

/-- `ClosureInfo::new`, /repo/hooq-macros/src/impls/utils/function_info.rs:16-44. -/
def closureInfo (sig : CSig) (cur : Field (Option FnInfo)) : FnInfo :=
  let anc := (nearestFn (cur.val :: cur.anc)).getD "<unknown>"
  .closure sig ("__closure_in_" ++ anc ++ "__")

/-- `HookContext::is_skipped`,
/repo/hooq-macros/src/impls/inert_attr/context.rs:321-323. -/
def Ctx.isSkipped (c : Ctx) : Bool := c.skip.isSome

/-- `path_is_hook_call_like_err`,
/repo/hooq-macros/src/impls/inert_attr/context.rs:329-334. -/
def Ctx.isErrLike (c : Ctx) (p : Path) : Bool := c.tailIdents.any fun s => p.isEndOf s

/-- `path_is_not_hook_call_like_ok`,
/repo/hooq-macros/src/impls/inert_attr/context.rs:336-341. -/
def Ctx.isOkLike (c : Ctx) (p : Path) : Bool := c.ignoreIdents.any fun s => p.isEndOf s

/-- `return_type_is_result`,
/repo/hooq-macros/src/impls/inert_attr/context.rs:343-352. -/
def Ctx.returnsResult (c : Ctx) : Bool :=
  match c.fnInfo.val with
  | some f => f.output.isResult c.resultTypes
  | none => false

/-- `HandleInertAttrsResult` with the attributes that stay,
/repo/hooq-macros/src/impls/inert_attr/mod.rs:34-37. -/
structure Handled where
  isSkipped : Bool
  ctx : Ctx
  attrs : List Attr
deriving Repr, Inhabited

/-- `handle_inert_attrs`, /repo/hooq-macros/src/impls/inert_attr/mod.rs:39-49. -/
def handleAttrs (env : Env) (attrs : List Attr) (c : Ctx) : Except Err Handled := do
  let (opt, kept) ← extract env attrs
  .ok { isSkipped := opt.skip || opt.skipAll || c.isSkipped
        ctx := c.update opt
        attrs := kept }

end Hooq
