import Verif.Spec.Expand
import Mathlib.Data.List.Forall2

/-!
# The same code under the same settings

When a piece of code is expanded at two places, everything should be the same there
except the running numbers.
-/

namespace Hooq

/-- The same token, except that the count text `x` is `x'` there. -/
inductive TT.Recount (x x' : String) : TT → TT → Prop
  | same (t : TT) : TT.Recount x x' t t
  | count (sp : Span) : TT.Recount x x' (.lit (.str x) sp) (.lit (.str x') sp)
  | info (m : MetaRec) (sp : Span) : m.count = x →
      TT.Recount x x' (.metaHole m sp) (.metaHole { m with count := x' } sp)
  | group (d : Delim) (ts ts' : List TT) (sp : Span) : List.Forall₂ (TT.Recount x x') ts ts' →
      TT.Recount x x' (.group d ts sp) (.group d ts' sp)

/-- The same number of targets of every kind after `b` and after `b'`. -/
def Counter.Moved (b b' c c' : Counter) : Prop :=
  ∀ k, ∃ j, c.get k = b.get k + j ∧ c'.get k = b'.get k + j

/-- The same hook, with the same number counted from `b` and from `b'`, and the count
texts in it accordingly. -/
structure HookData.Recount (b b' : Counter) (hk hk' : HookData) : Prop where
  kind : hk.kind = hk'.kind
  mode : hk.mode = hk'.mode
  exc : hk.exc = hk'.exc
  shape : hk.shape = hk'.shape
  span : hk.span = hk'.span
  count : ∃ j, hk.count = b.get hk.kind + j ∧ hk'.count = b'.get hk.kind + j
  toks : List.Forall₂ (TT.Recount (countSpec hk.count hk.kind) (countSpec hk'.count hk.kind))
    hk.toks hk'.toks

/-- The same hook around the same source. -/
def MarkRecount (b b' : Counter) (m m' : HookData × RTree) : Prop :=
  HookData.Recount b b' m.1 m'.1 ∧ m.2 = m'.2

/-- The same tree at every position, except for the running numbers in the hooks. -/
def RTree.Recount (b b' : Counter) (t t' : RTree) : Prop :=
  ∀ q, match t.sub q, t'.sub q with
    | some n, some n' => n.data = n'.data ∧ List.Forall₂ (MarkRecount b b') n.marks n'.marks
    | none, none => True
    | _, _ => False

/-- Whether emitted tokens parse, and as what, does not depend on the contents of a
string literal. -/
structure Env.CountBlind (env : Env) : Prop where
  insert : ∀ x x' ts ts', List.Forall₂ (TT.Recount x x') ts ts' → env.insertRear ts = env.insertRear ts'
  replace : ∀ r x x' ts ts', List.Forall₂ (TT.Recount x x') ts ts' →
    env.replaceShape r ts = env.replaceShape r ts'

/-- The same settings are in force below two chains of nodes, and the same function
is around. -/
structure SameInForce (env : Env) (s : Settings) (up : List Data) (s' : Settings) (up' : List Data) :
    Prop where
  method : methodStack env s up = methodStack env s' up'
  targets : targetsAt env s up = targetsAt env s' up'
  tailIdents : tailIdentsAt env s up = tailIdentsAt env s' up'
  ignoreIdents : ignoreAt env s up = ignoreAt env s' up'
  resultTypes : resultTypesAt env s up = resultTypesAt env s' up'
  hookInMacros : macrosAt env s up = macrosAt env s' up'
  bindings : ∀ k, bindingAt env s k up = bindingAt env s' k up'
  skipped : skippedAt up = skippedAt up'
  skippedBelow : skippedUp true up = skippedUp true up'
  innermost : innermostFn up = innermostFn up'
  enclosing : (enclosingFn up).map (·.ident) = (enclosingFn up').map (·.ident)

end Hooq
