import Verif.Spec.Position
import Verif.Spec.Walk

/-!
# Reading the output of an expansion as source

The output of an expansion is handed to the compiler as tokens.  An item in it that
carries `#[hooq]` is then expanded again, and for this its tokens are parsed.  This
file says which tree the parser builds from them: a hook that inserts a method is
read as postfix operators on its operand.

Left out: hooks that replace the operand, closures without return type whose block
body gets the method of the closure, and attributes on hooked paths and literals.
-/

namespace Hooq

/-- Postfix operators. -/
inductive Postfix
  | await
  | field
  | index (arg : RTree)
  | method (args : List RTree)
  | call (args : List RTree)
  | question

/-- A postfix operator with the span of the node that it makes. -/
structure Layer where
  op : Postfix
  span : Span

/-- What kind of node the operator makes. -/
def Layer.tag (l : Layer) : Tag :=
  match l.op with
  | .await => .other "await"
  | .field => .other "field"
  | .index _ => .other "index"
  | .method _ => .other "method-call"
  | .call _ => .call
  | .question => .question l.span false

/-- The children after the operand. -/
def Layer.args (l : Layer) : List RTree :=
  match l.op with
  | .index a => [a]
  | .method as => as
  | .call as => as
  | _ => []

/-- The operator applied to `x`. -/
def Layer.on (l : Layer) (ed : Edge) (attrs : List Attr) (x : RTree) : RTree :=
  hnode ed l.tag attrs l.span true (x :: l.args)

/-- Operators, outermost first, applied to a node.  The attributes and the edge of the
node go to the outermost one. -/
def wrap (f : Edge → List Attr → RTree) : List Layer → Edge → List Attr → RTree
  | [], ed, attrs => f ed attrs
  | l :: ls, ed, attrs => l.on ed attrs (wrap f ls {} [])

/-- The operators of the hooks on a node, outermost first. -/
def layersOf (ops : HookData → List Layer) (ms : List (HookData × RTree)) : List Layer :=
  ms.reverse.flatMap fun m => ops m.1

/-- How operators that follow the tokens of a node are read. -/
inductive Follow
  | drop  -- the node is a consumed `?`, and not in the tokens: they follow its operand
  | sink  -- they belong to the last part of the node
  | wrap  -- they apply to the node
deriving DecidableEq

/-- How operators after the node are read. -/
def Data.follow (d : Data) : Follow :=
  match d.tag, d.rear, d.mode with
  | .question _ true, _, _ => .drop
  | .other _, .last, .handled => .sink
  | .ret, .last, .handled => .sink
  | _, _, _ => .wrap

/-- The node itself under operators: only attributes that can move to the outermost
operator do. -/
def Data.under (d : Data) (ed : Edge) (attrs : List Attr) : Data :=
  { d with edge := ed, attrs := if d.mode = .handled then attrs else d.attrs }

mutual
/-- The tree that the parser builds from the tokens of a node of the output, where the
operators `above` follow them. -/
def reread (ops : HookData → List Layer) (ed : Edge) (above : List Layer) : RTree → RTree
  | .mk d ms ks =>
    match d.follow with
    | .drop => rereadHead ops ed (above ++ layersOf ops ms) ks
    | .sink => .mk { d with edge := ed } [] (rereadList ops (above ++ layersOf ops ms) ks)
    | .wrap => wrap (fun e a => .mk (d.under e a) [] (rereadList ops [] ks))
        (above ++ layersOf ops ms) ed (if d.mode = .handled then d.attrs else [])
/-- Siblings; the operators follow the last one. -/
def rereadList (ops : HookData → List Layer) (above : List Layer) : List RTree → List RTree
  | [] => []
  | k :: ks => reread ops k.data.edge (if ks.isEmpty then above else []) k :: rereadList ops above ks
/-- The first of the siblings. -/
def rereadHead (ops : HookData → List Layer) (ed : Edge) (above : List Layer) : List RTree → RTree
  | [] => hnode ed (.other "") [] .callSite false []
  | k :: _ => reread ops ed above k
end

/-- An item of the output as a tree of its own, with the attributes that are left when
its `#[hooq]` is taken off. -/
def rereadItem (ops : HookData → List Layer) (attrs : List Attr) : RTree → RTree
  | .mk d _ ks => .mk { d with edge := {}, attrs := attrs } [] (rereadList ops [] ks)

/-- Where a node of the output, or the outermost operator on it, is found. -/
def relocate (ops : HookData → List Layer) (above : List Layer) : RTree → List Nat → List Nat
  | _, [] => []
  | .mk d ms ks, i :: p =>
    match ks[i]? with
    | none => []
    | some k =>
      match d.follow with
      | .drop => relocate ops (above ++ layersOf ops ms) k p
      | .sink => i :: relocate ops (if i + 1 = ks.length then above ++ layersOf ops ms else []) k p
      | .wrap => List.replicate (above ++ layersOf ops ms).length 0 ++ i :: relocate ops [] k p

/-- The operators from further up that are read as applied to the node. -/
def landing (ops : HookData → List Layer) (above : List Layer) : RTree → List Nat → List Layer
  | _, [] => above
  | .mk d ms ks, i :: p =>
    match ks[i]? with
    | none => []
    | some k =>
      match d.follow with
      | .drop => landing ops (above ++ layersOf ops ms) k p
      | .sink => landing ops (if i + 1 = ks.length then above ++ layersOf ops ms else []) k p
      | .wrap => landing ops [] k p

/-- `relocate` in an item. -/
def relocateItem (ops : HookData → List Layer) : RTree → List Nat → List Nat
  | _, [] => []
  | .mk _ _ ks, i :: p =>
    match ks[i]? with
    | none => []
    | some k => i :: relocate ops [] k p

/-- `landing` in an item. -/
def landingItem (ops : HookData → List Layer) : RTree → List Nat → List Layer
  | _, [] => []
  | .mk _ _ ks, i :: p =>
    match ks[i]? with
    | none => []
    | some k => landing ops [] k p

end Hooq
