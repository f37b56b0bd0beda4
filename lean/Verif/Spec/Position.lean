import Verif.Spec.Tree
import Verif.Spec.Attr

/-!
# Settings in force at a position

Everything is computed from the nodes on the way from the root to the position,
innermost first (`up`), and from the settings `s` of the flavor named at the root.
-/

namespace Hooq

/-- The nodes from the node at position `p` up to the root, innermost first, on top
of the given list. -/
def RTree.upFrom (acc : List Data) : RTree → List Nat → Option (List Data)
  | .mk d _ _, [] => some (d :: acc)
  | .mk d _ ks, i :: p => match ks[i]? with
    | some k => k.upFrom (d :: acc) p
    | none => none

/-- The attributes that are looked at on a node: all, except on nodes whose
attributes the macro does not visit. -/
def Data.seen (d : Data) : List Attr :=
  match d.mode with
  | .handled => d.attrs
  | .tailOnly => if d.edge.tail = none then [] else d.attrs
  | .untouched => []
  | .dropped => []

/-- The attributes that should be left on a node of the output: the inert ones go
where attributes are looked at. -/
def Data.kept (d : Data) : List Attr :=
  match d.mode with
  | .handled => d.attrs.filter fun a => !a.isInert
  | .tailOnly => if d.edge.tail = none then d.attrs else d.attrs.filter fun a => !a.isInert
  | .untouched => d.attrs
  | .dropped => []

/-- All attributes that enclose a position, outermost first. -/
def attrsOver (up : List Data) : List Attr := up.reverse.flatMap Data.seen

/-- The methods set on the way, one per node that sets one, innermost first, ending
with that of the root flavor. -/
def methodStack (env : Env) (s : Settings) : List Data → List Method
  | [] => [s.method]
  | d :: up => (lastSet (methodOf env) d.seen).toList ++ methodStack env s up

/-- The method in force. -/
def methodAt (env : Env) (s : Settings) (up : List Data) : Method :=
  (lastSet (methodOf env) (attrsOver up)).getD s.method

/-- The hook targets in force. -/
def targetsAt (env : Env) (s : Settings) (up : List Data) : Targets :=
  (lastSet (targetsOf env) (attrsOver up)).getD s.targets

/-- The tail expression identifiers in force. -/
def tailIdentsAt (env : Env) (s : Settings) (up : List Data) : List String :=
  (lastSet (tailIdentsOf env) (attrsOver up)).getD s.tailIdents

/-- The result types in force. -/
def resultTypesAt (env : Env) (s : Settings) (up : List Data) : List String :=
  (lastSet (resultTypesOf env) (attrsOver up)).getD s.resultTypes

/-- The macro switch in force. -/
def macrosAt (env : Env) (s : Settings) (up : List Data) : Bool :=
  (lastSet (macrosOf env) (attrsOver up)).getD s.hookInMacros

/-- The ignore identifiers in force: those of the nearest node that gives some. -/
def ignoreAt (env : Env) (s : Settings) (up : List Data) : List String :=
  (up.findSome? fun d => nodeIgnore env d.seen).getD s.ignoreIdents

/-- The value of binding `k` in force. -/
def bindingAt (env : Env) (s : Settings) (k : String) (up : List Data) : Option Value :=
  (lastSet (bindingOf env k) (attrsOver up)).or (s.bindings.get? k)

/-- Is a position skipped?  Going up, the nearest node with a skip attribute
decides: `skip_all` always skips, `skip` skips if no scope was left on the way. -/
def skippedUp (left : Bool) : List Data → Bool
  | [] => false
  | d :: up =>
    if d.seen.any Meta.isSkipAll then true
    else if d.seen.any Meta.isSkip then !left
    else skippedUp (left || d.edge.scope) up

/-- Is a position skipped? -/
def skippedAt (up : List Data) : Bool := skippedUp false up

/-- The innermost function or closure around a position. -/
def innermostFn (up : List Data) : Option FnEntry := up.findSome? fun d => d.edge.fn

/-- The innermost function (not closure) around a position. -/
def enclosingFn (up : List Data) : Option Sig := up.findSome? fun d =>
  match d.edge.fn with
  | some (.fn sig) => some sig
  | _ => none

/-- Text of `$fn_name`. -/
def fnNameAt (up : List Data) : String :=
  match innermostFn up with
  | none => "<unknown>"
  | some (.fn sig) => sig.ident
  | some (.closure _) =>
    "__closure_in_" ++ (match enclosingFn up with
      | some sig => sig.ident
      | none => "<unknown>") ++ "__"

/-- Text of `$fn_sig`. -/
def fnSigAt (up : List Data) : String :=
  match innermostFn up with
  | none => "<unknown>"
  | some (.fn sig) => sig.text
  | some (.closure sig) => sig.text

/-- The declared return type of the innermost function or closure. -/
def outputAt (up : List Data) : RetType :=
  match innermostFn up with
  | none => .none
  | some (.fn sig) => sig.output
  | some (.closure sig) => sig.output

/-- The last segment of the path is one of the identifiers. -/
def endsIn (p : Option Path) (l : List String) : Bool :=
  match p with
  | some p => (match p.segs.getLast? with
    | some g => l.contains g.ident
    | none => false)
  | none => false

/-- The innermost function returns one of the result types. -/
def resultAt (env : Env) (s : Settings) (up : List Data) : Bool :=
  match outputAt up with
  | .path p => endsIn (some p) (resultTypesAt env s up)
  | _ => false

/-- Should a `return` of an expression with the given callee be hooked? -/
def returnWanted (env : Env) (s : Settings) (up : List Data) (callee : Option Path) : Bool :=
  endsIn callee (tailIdentsAt env s up) ||
    (resultAt env s up && !endsIn callee (ignoreAt env s up))

/-- Should a tail expression with the given callee be hooked? -/
def tailWanted (env : Env) (s : Settings) (up : List Data) (tk : TailKind) (callee : Option Path) :
    Bool :=
  endsIn callee (tailIdentsAt env s up) ||
    (tk == .fnTail && resultAt env s up && !endsIn callee (ignoreAt env s up))

/-- Is a position reached by the macro?  No left side of an assignment and no macro
with the macro switch off is on the way. -/
def reached (env : Env) (s : Settings) : List Data → Bool
  | [] => true
  | d :: up => d.edge.visit &&
    (match up with
      | m :: _ => m.tag != .mac || macrosAt env s up
      | [] => true) && reached env s up

/-- A target of kind `k` at the position gets a hook. -/
def hookedAt (env : Env) (s : Settings) (up : List Data) (k : Kind) : Bool :=
  !skippedAt up && (targetsAt env s up).has k


/-- An item as a generic tree. -/
abbrev Item.tree (i : Item) : RTree := viewItem {} i

/-- The chain of nodes from position `p` of an item up to the item, innermost
first. -/
abbrev Item.chain (i : Item) (p : List Nat) : Option (List Data) := i.tree.upFrom [] p

end Hooq
