import Verif.Model.Render

/-!
# The walker

/repo/hooq-macros/src/impls/walker/mod.rs, hook_expr.rs, walk_macro.rs.
-/

namespace Hooq

/-- The walk: the shared `Counter` is threaded, `syn::Result` is `Except`.
For /repo/hooq-macros/src/impls/walker/mod.rs:163-1047. -/
abbrev W (α : Type) := StateT Counter (Except Err) α

/-- Run a pure fallible step in the walk.
For /repo/hooq-macros/src/impls/walker/mod.rs:396-1047. -/
def W.lift {α : Type} (x : Except Err α) : W α := fun c => x.map fun a => (a, c)

/-- `hook_expr`, /repo/hooq-macros/src/impls/walker/hook_expr.rs:6-28: the hook to
build around the expression, if any. -/
def hookExpr (env : Env) (apply : Bool) (kind : Kind) (span : Span) (rear : Rear) (ctx : Ctx) :
    W (Option HookData) := fun c =>
  if apply then
    let c' := c.countUp kind
    if ctx.targets.has kind then
      (render env { ctx := ctx, kind := kind, count := c'.get kind, span := span, rear := rear }).map
        fun hk => (some hk, c')
    else .ok (none, c')
  else .ok (none, c)

/-- `TailExprTargetKind` without `NotTarget`,
/repo/hooq-macros/src/impls/walker/mod.rs:23-28. -/
inductive TailKind
  | fnTail | blockTail
deriving DecidableEq, Repr, Inhabited

/-- The expression built around `arg`.  Its span is that of the operand when the
method is appended, and the anchor when the operand is replaced.
For /repo/hooq-macros/src/impls/method/render/mod.rs:41-87. -/
def mkHooked (hk : HookData) (arg src : Expr) : Expr :=
  .mk [] hk.span (.hooked hk arg src)

/-- The path an expression consists of, if it is a path expression.
For /repo/hooq-macros/src/impls/walker/mod.rs:44-58. -/
def Expr.asPath : Expr → Option Path
  | .mk _ _ (.path p) => some p
  | .mk _ _ (.hooked hk arg _) =>
    match hk.mode, hk.shape with
    | .replace, .same => arg.asPath
    | .replace, .path p => some p
    | _, _ => none
  | _ => none

/-- The pattern of `target_call_check_bools`: the callee path of a call expression,
/repo/hooq-macros/src/impls/walker/mod.rs:45-46. -/
def Expr.callee : Expr → Option Path
  | .mk _ _ (.call f _) => f.asPath
  | .mk _ _ (.hooked hk arg _) =>
    match hk.mode, hk.shape with
    | .replace, .same => arg.callee
    | .replace, .call p => some p
    | _, _ => none
  | _ => none

/-- `expr.span()`: the span of the first token.  For expressions that begin with a
sub-expression it is that of the sub-expression.  Simplification: attributes in
front of the expression are not counted.
For /repo/hooq-macros/src/impls/walker/mod.rs:95. -/
def Expr.start : Expr → Span
  | .mk _ sp k => match k with
    | .assign e _ | .await e | .binary e _ _ | .call e _ | .cast e _ | .field e _ | .index e _
    | .methodCall e _ _ | .range (some e) _ _ | .try_ e _ => e.start
    | .hooked hk arg _ => match hk.mode with
      | .insert => arg.start
      | .replace => hk.span
    | _ => sp

/-- The end of an expression, see `Rear`.  Closures with a declared return type
have a block as body, which ends the closure.
For /repo/hooq-macros/src/impls/method/render/mod.rs:41-53. -/
def Expr.rear : Expr → Rear
  | .mk _ _ k => match k with
    | .assign _ e | .binary _ _ e | .range _ _ (some e) | .reference e | .rawAddr e | .unary _ e
    | .let_ _ e | .ret (some e) | .break_ _ (some e) | .yield_ (some e) => e.rear.inner
    | .closure sig e => if sig.output = .none then e.rear.inner else .whole
    | .cast _ _ | .range _ _ none | .ret none | .break_ _ none | .yield_ none => .stuck
    | .hooked hk arg _ => match hk.shape with
      | .same => arg.rear
      | .path _ | .call _ => .whole
      | .other r => r
    | _ => .whole

/-- Decision of `Expr::Return`,
/repo/hooq-macros/src/impls/walker/mod.rs:453-459. -/
def retRule (ctx : Ctx) (callee : Option Path) : Bool :=
  let isTarget := match callee with | some p => ctx.isErrLike p | none => false
  let isNot := match callee with | some p => ctx.isOkLike p | none => false
  isTarget || (ctx.returnsResult && !isNot)

/-- Decision of `handle_tail_expr`,
/repo/hooq-macros/src/impls/walker/mod.rs:82-93. -/
def tailRule (ctx : Ctx) (tk : TailKind) (callee : Option Path) : Bool :=
  let isTarget := match callee with | some p => ctx.isErrLike p | none => false
  let isNot := match callee with | some p => ctx.isOkLike p | none => false
  isTarget || (ctx.returnsResult && tk == .fnTail && !isNot)

/-- `get_attrs_from_expr` returns `None`,
/repo/hooq-macros/src/impls/utils/get_attrs.rs:50. -/
def ExprKind.noAttrs : ExprKind → Bool
  | .verbatim _ => true
  | _ => false

/-- `Expr::Block(_)`.
For /repo/hooq-macros/src/impls/walker/mod.rs:60-110. -/
def ExprKind.isBlock : ExprKind → Bool
  | .block _ _ => true
  | _ => false

/-- Is the node one the macro built?
For /repo/hooq-macros/src/impls/walker/mod.rs:60-110. -/
def ExprKind.isHooked : ExprKind → Bool
  | .hooked _ _ _ => true
  | _ => false

/-- `handle_tail_expr`, /repo/hooq-macros/src/impls/walker/mod.rs:60-110, on a node
given by its parts.  `walk` is the call of `walk_expr` on the same node with the
given context and attributes (75).  It is only called with a target kind, so the
check at 78-80 is left out. -/
def walkTail (env : Env) (ctx : Ctx) (tk : TailKind) (attrs : List Attr) (sp : Span)
    (k : ExprKind) (walk : Ctx → List Attr → W Expr) : W Expr :=
  if k.isHooked then W.lift (.error .notSource)
  else if k.noAttrs then pure (.mk attrs sp k)
  else do
    let h ← W.lift (handleAttrs env attrs ctx)
    let e' ← walk h.ctx h.attrs
    if tailRule h.ctx tk e'.callee then
      match ← hookExpr env (!h.isSkipped) .tail e'.start e'.rear h.ctx with
      | some hk => pure (mkHooked hk e' (.mk h.attrs sp k))
      | none => pure e'
    else pure e'

mutual

/-- `walk_expr`, /repo/hooq-macros/src/impls/walker/mod.rs:396-1047. -/
def walkExpr (env : Env) (ctx : Ctx) : Expr → W Expr
  | .mk attrs sp k => walkKind env ctx attrs sp k

/-- `walk_expr` on a node given by its parts; the numbers are lines of
/repo/hooq-macros/src/impls/walker/mod.rs. -/
def walkKind (env : Env) (ctx : Ctx) (attrs : List Attr) (sp : Span) : ExprKind → W Expr
  -- 399-439
  | .try_ e q => do
    let h ← W.lift (handleAttrs env attrs ctx)
    let src := Expr.mk h.attrs sp (.try_ e q)
    let e' ← walkExpr env h.ctx e
    match ← hookExpr env (!h.isSkipped) .question q e'.rear h.ctx with
    | some hk =>
      if hk.exc then pure (mkHooked hk e' src)
      else pure (.mk h.attrs sp (.try_ (mkHooked hk e' src) q))
    | none => pure (.mk h.attrs sp (.try_ e' q))
  -- 440-472
  | .ret (some e) => do
    let h ← W.lift (handleAttrs env attrs ctx)
    let src := Expr.mk h.attrs sp (.ret (some e))
    let e' ← walkExpr env h.ctx e
    if retRule h.ctx e'.callee then
      match ← hookExpr env (!h.isSkipped) .ret sp e'.rear h.ctx with
      | some hk => pure (.mk h.attrs sp (.ret (some (mkHooked hk e' src))))
      | none => pure (.mk h.attrs sp (.ret (some e')))
    else pure (.mk h.attrs sp (.ret (some e')))
  | .ret none => do
    let h ← W.lift (handleAttrs env attrs ctx)
    pure (.mk h.attrs sp (.ret none))
  -- 475-488
  | .array es => do
    let h ← W.lift (handleAttrs env attrs ctx)
    let es ← walkExprs env h.ctx es
    pure (.mk h.attrs sp (.array es))
  -- 489-496
  | .assign l r => do
    let h ← W.lift (handleAttrs env attrs ctx)
    let r ← walkExpr env h.ctx r
    pure (.mk h.attrs sp (.assign l r))
  -- 497-523
  | .async b => do
    let h ← W.lift (handleAttrs env attrs ctx)
    let b ← walkStmts env h.ctx.subScope .blockTail b
    pure (.mk h.attrs sp (.async b))
  -- 524-531
  | .await e => do
    let h ← W.lift (handleAttrs env attrs ctx)
    let e ← walkExpr env h.ctx e
    pure (.mk h.attrs sp (.await e))
  -- 532-540
  | .binary l op r => do
    let h ← W.lift (handleAttrs env attrs ctx)
    let l ← walkExpr env h.ctx l
    let r ← walkExpr env h.ctx r
    pure (.mk h.attrs sp (.binary l op r))
  -- 541-567
  | .block lb b => do
    let h ← W.lift (handleAttrs env attrs ctx)
    let b ← walkStmts env h.ctx.subScope .blockTail b
    pure (.mk h.attrs sp (.block lb b))
  -- 568-579
  | .break_ lb v => do
    let h ← W.lift (handleAttrs env attrs ctx)
    let v ← walkOpt env h.ctx v
    pure (.mk h.attrs sp (.break_ lb v))
  -- 580-594
  | .call f args => do
    let h ← W.lift (handleAttrs env attrs ctx)
    let f ← walkExpr env h.ctx f
    let args ← walkExprs env h.ctx args
    pure (.mk h.attrs sp (.call f args))
  -- 595-602
  | .cast e ty => do
    let h ← W.lift (handleAttrs env attrs ctx)
    let e ← walkExpr env h.ctx e
    pure (.mk h.attrs sp (.cast e ty))
  -- 603-644
  | .closure sig body => do
    let h ← W.lift (handleAttrs env attrs ctx)
    let c := h.ctx.updateFn (closureInfo sig h.ctx.fnInfo)
    let body ← walkClosureBody env c body
    pure (.mk h.attrs sp (.closure sig body))
  -- 645-671
  | .const_ b => do
    let h ← W.lift (handleAttrs env attrs ctx)
    let b ← walkStmts env h.ctx.subScope .blockTail b
    pure (.mk h.attrs sp (.const_ b))
  -- 672-679
  | .field e m => do
    let h ← W.lift (handleAttrs env attrs ctx)
    let e ← walkExpr env h.ctx e
    pure (.mk h.attrs sp (.field e m))
  -- 680-708
  | .forLoop hd e b => do
    let h ← W.lift (handleAttrs env attrs ctx)
    let e ← walkExpr env h.ctx e
    let b ← walkStmts env h.ctx.subScope .blockTail b
    pure (.mk h.attrs sp (.forLoop hd e b))
  -- 709-716
  | .group e => do
    let h ← W.lift (handleAttrs env attrs ctx)
    let e ← walkExpr env h.ctx e
    pure (.mk h.attrs sp (.group e))
  -- 717-750
  | .if_ cond thn els => do
    let h ← W.lift (handleAttrs env attrs ctx)
    let cond ← walkExpr env h.ctx cond
    let thn ← walkStmts env h.ctx.subScope .blockTail thn
    let els ← walkOpt env h.ctx.subScope els
    pure (.mk h.attrs sp (.if_ cond thn els))
  -- 751-759
  | .index e i => do
    let h ← W.lift (handleAttrs env attrs ctx)
    let e ← walkExpr env h.ctx e
    let i ← walkExpr env h.ctx i
    pure (.mk h.attrs sp (.index e i))
  -- 760-767
  | .let_ p e => do
    let h ← W.lift (handleAttrs env attrs ctx)
    let e ← walkExpr env h.ctx e
    pure (.mk h.attrs sp (.let_ p e))
  -- 768-794
  | .loop lb b => do
    let h ← W.lift (handleAttrs env attrs ctx)
    let b ← walkStmts env h.ctx.subScope .blockTail b
    pure (.mk h.attrs sp (.loop lb b))
  -- 795-827
  | .match_ e arms => do
    let h ← W.lift (handleAttrs env attrs ctx)
    let e ← walkExpr env h.ctx e
    let arms ← walkArms env h.ctx.subScope arms
    pure (.mk h.attrs sp (.match_ e arms))
  -- 828-842
  | .methodCall r n args => do
    let h ← W.lift (handleAttrs env attrs ctx)
    let r ← walkExpr env h.ctx r
    let args ← walkExprs env h.ctx args
    pure (.mk h.attrs sp (.methodCall r n args))
  -- 843-850
  | .paren e => do
    let h ← W.lift (handleAttrs env attrs ctx)
    let e ← walkExpr env h.ctx e
    pure (.mk h.attrs sp (.paren e))
  -- 851-865
  | .range s op t => do
    let h ← W.lift (handleAttrs env attrs ctx)
    let s ← walkOpt env h.ctx s
    let t ← walkOpt env h.ctx t
    pure (.mk h.attrs sp (.range s op t))
  -- 866-873
  | .rawAddr e => do
    let h ← W.lift (handleAttrs env attrs ctx)
    let e ← walkExpr env h.ctx e
    pure (.mk h.attrs sp (.rawAddr e))
  -- 874-881
  | .reference e => do
    let h ← W.lift (handleAttrs env attrs ctx)
    let e ← walkExpr env h.ctx e
    pure (.mk h.attrs sp (.reference e))
  -- 882-890
  | .repeat_ e n => do
    let h ← W.lift (handleAttrs env attrs ctx)
    let e ← walkExpr env h.ctx e
    let n ← walkExpr env h.ctx n
    pure (.mk h.attrs sp (.repeat_ e n))
  -- 891-914
  | .struct_ hd fs rest => do
    let h ← W.lift (handleAttrs env attrs ctx)
    let fs ← walkFields env h.ctx fs
    let rest ← walkOpt env h.ctx rest
    pure (.mk h.attrs sp (.struct_ hd fs rest))
  -- 915-943
  | .tryBlock b => do
    let h ← W.lift (handleAttrs env attrs ctx)
    let b ← walkStmts env h.ctx.subScope .blockTail b
    pure (.mk h.attrs sp (.tryBlock b))
  -- 944-957
  | .tuple es => do
    let h ← W.lift (handleAttrs env attrs ctx)
    let es ← walkExprs env h.ctx es
    pure (.mk h.attrs sp (.tuple es))
  -- 958-965
  | .unary op e => do
    let h ← W.lift (handleAttrs env attrs ctx)
    let e ← walkExpr env h.ctx e
    pure (.mk h.attrs sp (.unary op e))
  -- 966-992
  | .unsafe_ b => do
    let h ← W.lift (handleAttrs env attrs ctx)
    let b ← walkStmts env h.ctx.subScope .blockTail b
    pure (.mk h.attrs sp (.unsafe_ b))
  -- 993-1021
  | .while_ lb cond b => do
    let h ← W.lift (handleAttrs env attrs ctx)
    let cond ← walkExpr env h.ctx cond
    let b ← walkStmts env h.ctx.subScope .blockTail b
    pure (.mk h.attrs sp (.while_ lb cond b))
  -- 1022-1035
  | .yield_ v => do
    let h ← W.lift (handleAttrs env attrs ctx)
    let v ← walkOpt env h.ctx v
    pure (.mk h.attrs sp (.yield_ v))
  -- 1037
  | .mac m => do
    let r ← walkMac env ctx attrs m
    pure (.mk r.1 sp (.mac r.2))
  -- 1039-1045
  | .continue_ lb => pure (.mk attrs sp (.continue_ lb))
  | .infer => pure (.mk attrs sp .infer)
  | .lit l => pure (.mk attrs sp (.lit l))
  | .path p => pure (.mk attrs sp (.path p))
  | .verbatim ts => pure (.mk attrs sp (.verbatim ts))
  -- not source code
  | .hooked _ _ _ => W.lift (.error .notSource)

/-- The body of a closure, /repo/hooq-macros/src/impls/walker/mod.rs:613-641. -/
def walkClosureBody (env : Env) (ctx : Ctx) : Expr → W Expr
  | .mk attrs sp k =>
    if k.isBlock then walkClosureBlock env ctx attrs sp k
    else walkTail env ctx .fnTail attrs sp k (fun c a => walkKind env c a sp k)

/-- The `Expr::Block` arm of a closure body,
/repo/hooq-macros/src/impls/walker/mod.rs:614-638; only called on blocks. -/
def walkClosureBlock (env : Env) (ctx : Ctx) (attrs : List Attr) (sp : Span) :
    ExprKind → W Expr
  | .block lb b => do
    let h ← W.lift (handleAttrs env attrs ctx)
    let b ← walkStmts env h.ctx.subScope .fnTail b
    pure (.mk h.attrs sp (.block lb b))
  | k => pure (.mk attrs sp k)

/-- The body of a match arm, /repo/hooq-macros/src/impls/walker/mod.rs:813-820. -/
def walkArmBody (env : Env) (ctx : Ctx) : Expr → W Expr
  | .mk attrs sp k =>
    if k.isBlock then walkKind env ctx attrs sp k
    else walkTail env ctx .blockTail attrs sp k (fun c a => walkKind env c a sp k)

/-- `iter_mut().map(walk_expr).collect()` over a list of expressions.
For /repo/hooq-macros/src/impls/walker/mod.rs:483, 509, 589. -/
def walkExprs (env : Env) (ctx : Ctx) : List Expr → W (List Expr)
  | [] => pure []
  | e :: es => do
    let e ← walkExpr env ctx e
    let es ← walkExprs env ctx es
    pure (e :: es)

/-- `if let Some(e) = .. { walk_expr(e) }`.
For /repo/hooq-macros/src/impls/walker/mod.rs:574, 857-860, 909, 1030. -/
def walkOpt (env : Env) (ctx : Ctx) : Option Expr → W (Option Expr)
  | none => pure none
  | some e => do
    let e ← walkExpr env ctx e
    pure (some e)

/-- The fields of a struct expression,
/repo/hooq-macros/src/impls/walker/mod.rs:897-908. -/
def walkFields (env : Env) (ctx : Ctx) : List FieldVal → W (List FieldVal)
  | [] => pure []
  | f :: fs => do
    let f ← walkField env ctx f
    let fs ← walkFields env ctx fs
    pure (f :: fs)

/-- One field, /repo/hooq-macros/src/impls/walker/mod.rs:900-906. -/
def walkField (env : Env) (ctx : Ctx) : FieldVal → W FieldVal
  | .mk attrs m e => do
    let h ← W.lift (handleAttrs env attrs ctx)
    let e ← walkExpr env h.ctx e
    pure (.mk h.attrs m e)

/-- The arms of a match, /repo/hooq-macros/src/impls/walker/mod.rs:805-824. -/
def walkArms (env : Env) (ctx : Ctx) : List Arm → W (List Arm)
  | [] => pure []
  | a :: rest => do
    let a ← walkArm env ctx a
    let rest ← walkArms env ctx rest
    pure (a :: rest)

/-- One arm, /repo/hooq-macros/src/impls/walker/mod.rs:808-823.  Attributes of the
arm are not looked at. -/
def walkArm (env : Env) (ctx : Ctx) : Arm → W Arm
  | .mk attrs pat guard body => do
    let guard ← walkOpt env ctx guard
    let body ← walkArmBody env ctx body
    pure (.mk attrs pat guard body)

/-- The loop over the statements of a block, e.g.
/repo/hooq-macros/src/impls/walker/mod.rs:177-191: only the last statement is in
tail position. -/
def walkStmts (env : Env) (ctx : Ctx) (tk : TailKind) : List Stmt → W (List Stmt)
  | [] => pure []
  | s :: rest => do
    let s ← walkStmt env ctx (if rest.isEmpty then some tk else none) s
    let rest ← walkStmts env ctx tk rest
    pure (s :: rest)

/-- `walk_stmt`, /repo/hooq-macros/src/impls/walker/mod.rs:112-155; `none` is
`TailExprTargetKind::NotTarget`. -/
def walkStmt (env : Env) (ctx : Ctx) (tk : Option TailKind) : Stmt → W Stmt
  | .localInit attrs pat e dv => do
    let h ← W.lift (handleAttrs env attrs ctx)
    let e ← walkExpr env h.ctx e
    let dv ← walkOpt env h.ctx dv
    pure (.localInit h.attrs pat e dv)
  | .localDecl attrs pat => pure (.localDecl attrs pat)
  | .item i => do
    let i ← walkItem env ctx i
    pure (.item i)
  | .expr e semi => do
    let e ← walkStmtExpr env ctx (if semi then none else tk) e
    pure (.expr e semi)
  | .mac attrs m semi => do
    let r ← walkMac env ctx attrs m
    pure (.mac r.1 r.2 semi)

/-- The two `Stmt::Expr` arms, /repo/hooq-macros/src/impls/walker/mod.rs:139-142. -/
def walkStmtExpr (env : Env) (ctx : Ctx) (tk : Option TailKind) : Expr → W Expr
  | .mk attrs sp k => match tk with
    | some tk => walkTail env ctx tk attrs sp k (fun c a => walkKind env c a sp k)
    | none => walkKind env ctx attrs sp k

/-- `walk_macro`, /repo/hooq-macros/src/impls/walker/walk_macro.rs:12-34. -/
def walkMac (env : Env) (ctx : Ctx) (attrs : List Attr) : Mac → W (List Attr × Mac)
  | .mk p d body => do
    let h ← W.lift (handleAttrs env attrs ctx)
    if h.ctx.hookInMacros then do
      let body ← walkMacBody env h.ctx body
      pure (h.attrs, .mk p d body)
    else pure (h.attrs, .mk p d body)

/-- `handle_token_stream`, /repo/hooq-macros/src/impls/walker/walk_macro.rs:36-82.
The result is kept as a list of evaluables instead of being printed. -/
def walkMacBody (env : Env) (ctx : Ctx) : MacBody → W MacBody
  | .raw ts => pure (.raw ts)
  | .parsed evs => do
    let evs ← walkEvs env ctx evs
    pure (.parsed evs)

/-- The loop over evaluables,
/repo/hooq-macros/src/impls/walker/walk_macro.rs:45-79. -/
def walkEvs (env : Env) (ctx : Ctx) : List Ev → W (List Ev)
  | [] => pure []
  | v :: vs => do
    let v ← walkEv env ctx v
    let vs ← walkEvs env ctx vs
    pure (v :: vs)

/-- One evaluable, /repo/hooq-macros/src/impls/walker/walk_macro.rs:48-73.  Of a
file only the items are printed (49-56). -/
def walkEv (env : Env) (ctx : Ctx) : Ev → W Ev
  | .file _ items sep => do
    let items ← walkItems env ctx items
    pure (.file [] items sep)
  | .item i sep => do
    let i ← walkItem env ctx i
    pure (.item i sep)
  | .expr e sep => do
    let e ← walkExpr env ctx e
    pure (.expr e sep)
  | .stmt s sep => do
    let s ← walkStmt env ctx none s
    pure (.stmt s sep)

/-- `walk_item`, /repo/hooq-macros/src/impls/walker/mod.rs:163-394. -/
def walkItem (env : Env) (ctx : Ctx) : Item → W Item
  -- 165-194
  | .fn attrs sig body => do
    let h ← W.lift (handleAttrs env attrs ctx)
    let body ← walkStmts env (h.ctx.updateFn (.function sig)).subScope .fnTail body
    pure (.fn h.attrs sig body)
  -- 195-259
  | .impl_ attrs hd items => do
    let h ← W.lift (handleAttrs env attrs ctx)
    let items ← walkImplItems env h.ctx items
    pure (.impl_ h.attrs hd items)
  -- 260-276
  | .mod_ attrs name items => do
    let h ← W.lift (handleAttrs env attrs ctx)
    let items ← walkItems env h.ctx items
    pure (.mod_ h.attrs name items)
  -- 278-286
  | .const_ attrs hd e => do
    let h ← W.lift (handleAttrs env attrs ctx)
    let e ← walkExpr env h.ctx e
    pure (.const_ h.attrs hd e)
  | .static_ attrs hd e => do
    let h ← W.lift (handleAttrs env attrs ctx)
    let e ← walkExpr env h.ctx e
    pure (.static_ h.attrs hd e)
  -- 288-362
  | .trait_ attrs hd items => do
    let h ← W.lift (handleAttrs env attrs ctx)
    let items ← walkTraitItems env h.ctx items
    pure (.trait_ h.attrs hd items)
  -- 364-378
  | .mac attrs m => do
    let r ← walkMac env ctx attrs m
    pure (.mac r.1 r.2)
  | .macroRules attrs name m => pure (.macroRules attrs name m)
  -- 380-392
  | .other attrs text => pure (.other attrs text)

/-- `items.iter_mut().map(walk_item)`.
For /repo/hooq-macros/src/impls/walker/mod.rs:271-296. -/
def walkItems (env : Env) (ctx : Ctx) : List Item → W (List Item)
  | [] => pure []
  | i :: is => do
    let i ← walkItem env ctx i
    let is ← walkItems env ctx is
    pure (i :: is)

/-- The items of an impl block, /repo/hooq-macros/src/impls/walker/mod.rs:201-256. -/
def walkImplItems (env : Env) (ctx : Ctx) : List ImplItem → W (List ImplItem)
  | [] => pure []
  | i :: is => do
    let i ← walkImplItem env ctx i
    let is ← walkImplItems env ctx is
    pure (i :: is)

/-- One impl item, /repo/hooq-macros/src/impls/walker/mod.rs:205-254. -/
def walkImplItem (env : Env) (ctx : Ctx) : ImplItem → W ImplItem
  | .fn attrs sig body => do
    let h ← W.lift (handleAttrs env attrs ctx)
    let body ← walkStmts env (h.ctx.updateFn (.function sig)).subScope .fnTail body
    pure (.fn h.attrs sig body)
  | .const_ attrs hd e => do
    let h ← W.lift (handleAttrs env attrs ctx)
    let e ← walkExpr env h.ctx e
    pure (.const_ h.attrs hd e)
  | .mac attrs m => do
    let r ← walkMac env ctx attrs m
    pure (.mac r.1 r.2)
  | .other attrs text => pure (.other attrs text)

/-- The items of a trait, /repo/hooq-macros/src/impls/walker/mod.rs:294-359. -/
def walkTraitItems (env : Env) (ctx : Ctx) : List TraitItem → W (List TraitItem)
  | [] => pure []
  | i :: is => do
    let i ← walkTraitItem env ctx i
    let is ← walkTraitItems env ctx is
    pure (i :: is)

/-- One trait item, /repo/hooq-macros/src/impls/walker/mod.rs:298-357. -/
def walkTraitItem (env : Env) (ctx : Ctx) : TraitItem → W TraitItem
  | .const_ attrs hd e => do
    let h ← W.lift (handleAttrs env attrs ctx)
    let e ← walkExpr env h.ctx e
    pure (.const_ h.attrs hd e)
  | .fn attrs sig body => do
    let h ← W.lift (handleAttrs env attrs ctx)
    let body ← walkStmts env (h.ctx.updateFn (.function sig)).subScope .fnTail body
    pure (.fn h.attrs sig body)
  | .mac attrs m => do
    let r ← walkMac env ctx attrs m
    pure (.mac r.1 r.2)
  | .other attrs text => pure (.other attrs text)

end

end Hooq
