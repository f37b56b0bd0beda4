import Verif.Spec.Position
import Verif.Spec.Walk

/-!
# Agreement of context and position
-/

namespace Hooq

/-- The function information the context holds for an entered function. -/
def fnInfoOf (up : List Data) : FnEntry → FnInfo
  | .fn sig => .function sig
  | .closure sig => .closure sig (fnNameAt up)

/-- The context holds the settings in force at the position. -/
structure Agrees (env : Env) (s : Settings) (up : List Data) (c : Ctx) : Prop where
  method : c.method.val :: c.method.anc = methodStack env s up
  targets : c.targets = targetsAt env s up
  tailIdents : c.tailIdents = tailIdentsAt env s up
  ignoreIdents : c.ignoreIdents = ignoreAt env s up
  resultTypes : c.resultTypes = resultTypesAt env s up
  hookInMacros : c.hookInMacros = macrosAt env s up
  bindings : ∀ k, c.bindings.get? k = bindingAt env s k up
  nodup : s.bindings.keys.Nodup → c.bindings.keys.Nodup
  skipAll : c.skip = some .all ↔ skippedUp true up = true
  skipped : c.isSkipped = skippedAt up
  fnVal : c.fnInfo.val = (innermostFn up).map (fnInfoOf up)
  fnNear : nearestFn (c.fnInfo.val :: c.fnInfo.anc) = (enclosingFn up).map (·.ident)

end Hooq
