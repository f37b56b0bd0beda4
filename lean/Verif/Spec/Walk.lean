import Verif.Spec.Tree

/-!
# The uniform walk on generic trees
-/

namespace Hooq

/-- Effect of entering a node on the context: function entered, then scope. -/
def Edge.enter (ed : Edge) (c : Ctx) : Ctx :=
  let c := match ed.fn with
    | some (.fn sig) => c.updateFn (.function sig)
    | some (.closure sig) => c.updateFn (closureInfo sig c.fnInfo)
    | none => c
  if ed.scope then c.subScope else c

/-- Are the attributes of the node looked at? -/
def Data.handles (d : Data) : Bool :=
  match d.mode with
  | .handled => true
  | .tailOnly => d.edge.tail.isSome
  | .untouched => false
  | .dropped => false

/-- Processing of the attributes of a node. -/
def Data.handle (env : Env) (d : Data) (c : Ctx) : Except Err Handled :=
  if d.handles then handleAttrs env d.attrs c
  else .ok { isSkipped := c.isSkipped, ctx := c,
             attrs := match d.mode with | .dropped => [] | _ => d.attrs }

/-- How a hook changes what the expression looks like as a callee path. -/
def hookPath (cur : Option Path) (hk : HookData) : Option Path :=
  match hk.mode, hk.shape with
  | .replace, .same => cur
  | .replace, .path p => some p
  | _, _ => none

/-- How a hook changes what the expression looks like as a call. -/
def hookCallee (cur : Option Path) (hk : HookData) : Option Path :=
  match hk.mode, hk.shape with
  | .replace, .same => cur
  | .replace, .call p => some p
  | _, _ => none

/-- How a hook changes the first token. -/
def hookStart (cur : Span) (hk : HookData) : Span :=
  match hk.mode with
  | .insert => cur
  | .replace => hk.span

/-- The hooks on a node, innermost first. -/
def RTree.hooks (t : RTree) : List HookData := t.marks.map Prod.fst

mutual
/-- The path the expression consists of. -/
def RTree.asPath : RTree → Option Path
  | .mk d ms ks =>
    (ms.map Prod.fst).foldl hookPath (match d.tag with
      | .path p => some p
      | .question _ true => RTree.asPathHead ks
      | _ => none)
/-- `asPath` of the first child. -/
def RTree.asPathHead : List RTree → Option Path
  | [] => none
  | k :: _ => k.asPath
end

mutual
/-- The callee path if the expression is a call of a path. -/
def RTree.callee : RTree → Option Path
  | .mk d ms ks =>
    (ms.map Prod.fst).foldl hookCallee (match d.tag with
      | .call => RTree.asPathHead ks
      | .question _ true => RTree.calleeHead ks
      | _ => none)
/-- `callee` of the first child. -/
def RTree.calleeHead : List RTree → Option Path
  | [] => none
  | k :: _ => k.callee
end

mutual
/-- The span of the first token. -/
def RTree.start : RTree → Span
  | .mk d ms ks =>
    (ms.map Prod.fst).foldl hookStart (if d.leftmost then RTree.startHead d.span ks else d.span)
/-- `start` of the first child. -/
def RTree.startHead (sp : Span) : List RTree → Span
  | [] => sp
  | k :: _ => k.start
end

/-- How a hook changes the end. -/
def hookRear (cur : Rear) (hk : HookData) : Rear :=
  match hk.shape with
  | .same => cur
  | .path _ | .call _ => .whole
  | .other r => r

mutual
/-- The end of the expression. -/
def RTree.rear : RTree → Rear
  | .mk d ms ks =>
    (ms.map Prod.fst).foldl hookRear (match d.tag, d.rear with
      | .question _ true, _ => RTree.rearLast ks
      | _, .closed => .whole
      | _, .last => (RTree.rearLast ks).inner
      | _, .stuck => .stuck)
/-- `rear` of the last child. -/
def RTree.rearLast : List RTree → Rear
  | [] => .stuck
  | [k] => k.rear
  | _ :: k :: ks => RTree.rearLast (k :: ks)
end

/-- `rear` of the first child. -/
def RTree.rearHead : List RTree → Rear
  | [] => .stuck
  | k :: _ => k.rear

/-- Put a hook on the first child. -/
def markHead (m : HookData × RTree) : List RTree → List RTree
  | [] => []
  | k :: ks => k.addMark m :: ks

/-- Is the node one the macro built? -/
def RTree.built : RTree → Bool
  | .mk d ms _ => !ms.isEmpty || (match d.tag with | .question _ true => true | _ => false)

/-- The `?` and `return` step at a node whose children have been walked. -/
def gtarget (env : Env) (h : Handled) (d : Data) (kids kids' : List RTree) : W RTree :=
  let src := RTree.mk { d with edge := {}, attrs := h.attrs } [] kids
  let out := { d with attrs := h.attrs }
  match d.tag with
  | .question q _ => do
    match ← hookExpr env (!h.isSkipped) .question q (RTree.rearHead kids') h.ctx with
    | some hk =>
      if hk.exc then
        pure (.mk { out with tag := .question q true, attrs := [] } [] (markHead (hk, src) kids'))
      else pure (.mk out [] (markHead (hk, src) kids'))
    | none => pure (.mk out [] kids')
  | .ret => match kids' with
    | [] => pure (.mk out [] kids')
    | k :: _ =>
      if retRule h.ctx k.callee then do
        match ← hookExpr env (!h.isSkipped) .ret d.span k.rear h.ctx with
        | some hk => pure (.mk out [] (markHead (hk, src) kids'))
        | none => pure (.mk out [] kids')
      else pure (.mk out [] kids')
  | _ => pure (.mk out [] kids')

/-- The tail expression step at a walked node. -/
def gtail (env : Env) (h : Handled) (d : Data) (kids : List RTree) (t : RTree) : W RTree :=
  match d.edge.tail with
  | none => pure t
  | some tk =>
    if d.mode = .untouched then pure t
    else if tailRule h.ctx tk t.callee then do
      match ← hookExpr env (!h.isSkipped) .tail t.start t.rear h.ctx with
      | some hk => pure (t.addMark (hk, .mk { d with edge := {}, attrs := h.attrs } [] kids))
      | none => pure t
    else pure t

/-- Are the children of the node walked? -/
def Data.opens (d : Data) (c : Ctx) : Bool :=
  match d.tag with
  | .mac => c.hookInMacros
  | _ => true

/-- Walk the children if the node is open. -/
def gopen (b : Bool) (kids : List RTree) (w : W (List RTree)) : W (List RTree) :=
  if b then w else pure kids

mutual
/-- The uniform walk: enter, process attributes, walk the children, then the `?` or
`return` step, then the tail step. -/
def gwalk (env : Env) (ctx : Ctx) : RTree → W RTree
  | .mk d ms kids =>
    if d.edge.visit then
      if (RTree.mk d ms kids).built then W.lift (.error .notSource)
      else do
        let h ← W.lift (d.handle env (d.edge.enter ctx))
        let kids' ← gopen (d.opens h.ctx) kids (gwalkList env h.ctx kids)
        let t ← gtarget env h d kids kids'
        gtail env h d kids t
    else pure (.mk d ms kids)
/-- The walk on a list of siblings. -/
def gwalkList (env : Env) (ctx : Ctx) : List RTree → W (List RTree)
  | [] => pure []
  | t :: ts => do
    let t ← gwalk env ctx t
    let ts ← gwalkList env ctx ts
    pure (t :: ts)
end

end Hooq
