import Verif.Proof.Refine
import Verif.Proof.Shape

/-!
# The refinement theorem

Walking an item and viewing the result is the uniform walk of the view.
-/

namespace Hooq

theorem gwalkE_edge {env : Env} {ctx : Ctx} {ed : Edge} (hv : ed.visit = true)
    (ht : ed.tail = none) {e : Expr} (hs : (viewE {} e).data.edge = {})
    (ih : ∀ c, gwalk env c (viewE {} e) = viewE {} <$> walkExpr env c e) :
    gwalk env ctx (viewE ed e) = viewE ed <$> walkExpr env (ed.enter ctx) e := by
  rw [← viewE_edge {} ed e, gwalk_edge env ctx ed _ hv ht hs, ih, ← comp_map]
  congr 1; funext x
  exact viewE_edge {} ed x

theorem enter_scopeEdge (c : Ctx) : scopeEdge.enter c = c.subScope := rfl

theorem enter_fnEdge (sig : Sig) (c : Ctx) :
    Edge.enter { scope := true, fn := some (.fn sig) } c = (c.updateFn (.function sig)).subScope := rfl

theorem enter_closureEdge (sig : CSig) (c : Ctx) :
    Edge.enter { fn := some (.closure sig) } c = c.updateFn (closureInfo sig c.fnInfo) := rfl

theorem gwalk_question (env : Env) (ctx : Ctx) (attrs : List Attr) (sp : Span) (q : Span) (e : Expr)
    (ih : ∀ c, gwalk env c (viewE {} e) = viewE {} <$> walkExpr env c e) :
    gwalk env ctx (viewK {} attrs sp (.try_ e q)) = viewE {} <$> walkKind env ctx attrs sp (.try_ e q) := by
  simp only [viewK, hnode, gwalk, RTree.built, Data.handle, Data.handles, Data.opens, gopen, gtarget,
    gtail, enter_empty, walkKind, map_bind, gwalkList, ih, bind_map_left, bind_assoc, pure_bind,
    List.isEmpty_nil, Bool.not_true, Bool.or_false, Bool.false_eq_true, if_true, if_false,
    RTree.rearHead, viewE_rear]
  congr 1; funext h; congr 1; funext e'
  apply hookExpr_bind_congr
  intro o ho
  cases o with
  | none => simp [viewE, viewK, hnode]
  | some hk =>
    have hk1 := (ho hk rfl).1
    have hk2 := (ho hk rfl).2
    cases he : hk.exc
    · simp [viewE, viewK, hnode, mkHooked, he, markHead]
    · simp [viewE, viewK, hnode, mkHooked, he, markHead, hk1, hk2]

theorem gwalk_ret (env : Env) (ctx : Ctx) (attrs : List Attr) (sp : Span) (e : Expr)
    (ih : ∀ c, gwalk env c (viewE {} e) = viewE {} <$> walkExpr env c e) :
    gwalk env ctx (viewK {} attrs sp (.ret (some e)))
      = viewE {} <$> walkKind env ctx attrs sp (.ret (some e)) := by
  simp only [viewK, viewO, hnode, gwalk, RTree.built, Data.handle, Data.handles, Data.opens, gopen,
    gtarget, gtail, enter_empty, walkKind, map_bind, gwalkList, ih, bind_map_left, bind_assoc,
    pure_bind, List.isEmpty_nil, Bool.not_true, Bool.or_false, Bool.false_eq_true, if_true, if_false,
    viewE_callee, viewE_rear]
  congr 1; funext h; congr 1; funext e'
  split
  · simp only [map_bind, bind_assoc]
    apply hookExpr_bind_congr
    intro o ho
    cases o with
    | none => simp [viewE, viewK, viewO, hnode]
    | some hk =>
      have hk1 := (ho hk rfl).1
      simp [viewE, viewK, viewO, hnode, mkHooked, markHead, hk1]
  · simp [viewE, viewK, viewO, hnode]

theorem gwalk_ret_none (env : Env) (ctx : Ctx) (attrs : List Attr) (sp : Span) :
    gwalk env ctx (viewK {} attrs sp (.ret none))
      = viewE {} <$> walkKind env ctx attrs sp (.ret none) := by
  simp [viewK, viewE, viewO, hnode, gwalk, RTree.built, Data.handle, Data.handles, Data.opens, gopen,
    gtarget, gtail, enter_empty, walkKind, gwalkList]

/-- The tail case of a closure or arm body, and of a trailing expression. -/
theorem gwalk_tailK (env : Env) (ctx : Ctx) (ed : Edge) (tk : TailKind) (sp : Span)
    (k : ExprKind) (hv : ed.visit = true) (ht : ed.tail = some tk)
    (ih : ∀ c attrs, gwalk env c (viewK {} attrs sp k) = viewE {} <$> walkKind env c attrs sp k)
    (attrs : List Attr) :
    gwalk env ctx (viewK ed attrs sp k)
      = viewE ed <$> walkTail env (ed.enter ctx) tk attrs sp k (fun c a => walkKind env c a sp k) :=
  (walkTail_refine env ctx ed tk sp k hv ht (fun c a => (ih c a).symm) attrs).symm

theorem gwalk_closureBody (env : Env) (ctx : Ctx) (sig : CSig) (attrs : List Attr) (sp : Span)
    (k : ExprKind) (hb : k.isBlock = false)
    (ih : ∀ c attrs, gwalk env c (viewK {} attrs sp k) = viewE {} <$> walkKind env c attrs sp k) :
    gwalk env ctx (viewClosureBody { fn := some (.closure sig) } (.mk attrs sp k))
      = viewClosureBody { fn := some (.closure sig) } <$>
          walkClosureBody env (ctx.updateFn (closureInfo sig ctx.fnInfo)) (.mk attrs sp k) := by
  simp only [viewClosureBody, walkClosureBody, hb, Bool.false_eq_true, if_false]
  rw [gwalk_tailK env ctx { fn := some (.closure sig), tail := some .fnTail } .fnTail sp k rfl rfl ih]
  apply (walkTail_notBlock env _ .fnTail attrs sp k hb).map_congr
  intro e he
  cases e
  simp only [Expr.kind] at he
  simp [viewClosureBody, viewE, he]

theorem gwalk_armBody (env : Env) (ctx : Ctx) (attrs : List Attr) (sp : Span) (k : ExprKind)
    (hb : k.isBlock = false)
    (ih : ∀ c attrs, gwalk env c (viewK {} attrs sp k) = viewE {} <$> walkKind env c attrs sp k) :
    gwalk env ctx (viewArmBody (.mk attrs sp k))
      = viewArmBody <$> walkArmBody env ctx (.mk attrs sp k) := by
  simp only [viewArmBody, walkArmBody, hb, Bool.false_eq_true, if_false]
  rw [gwalk_tailK env ctx { tail := some .blockTail } .blockTail sp k rfl rfl ih]
  apply (walkTail_notBlock env _ .blockTail attrs sp k hb).map_congr
  intro e he
  cases e
  simp only [Expr.kind] at he
  simp [viewArmBody, viewE, he]

theorem gwalk_macNode {α : Type} (env : Env) (ctx : Ctx) (ed : Edge) (hv : ed.visit = true)
    (ht : ed.tail = none) (attrs : List Attr) (sp : Span) (p : Path) (d : Delim) (body : MacBody)
    (ih : ∀ c, gwalkList env c (viewMacBody body) = viewMacBody <$> walkMacBody env c body)
    (f : List Attr × Mac → α) (g : RTree → α)
    (hfg : ∀ r, g (hnode ed .mac r.1 sp false (viewMac r.2)) = f r) :
    g <$> gwalk env ctx (hnode ed .mac attrs sp false (viewMac (.mk p d body)))
      = f <$> walkMac env (ed.enter ctx) attrs (.mk p d body) := by
  rw [gwalk_mac env ctx ed hv ht]
  simp only [walkMac, map_bind, viewMac, ih]
  congr 1; funext h
  cases hb : h.ctx.hookInMacros
  · simp only [gopen, Bool.false_eq_true, if_false, pure_bind, map_pure, ← hfg, viewMac]
  · simp only [gopen, if_true, bind_map_left, map_pure, map_bind, ← hfg, viewMac]

theorem walkOpt_bind_congr (env : Env) (c : Ctx) (s : Option Expr) {f g : Option Expr → W RTree}
    (h : ∀ o, o.isSome = s.isSome → f o = g o) :
    (walkOpt env c s >>= f) = (walkOpt env c s >>= g) := by
  cases s with
  | none => simp only [walkOpt, pure_bind]; exact h none rfl
  | some e =>
    simp only [walkOpt, bind_assoc, pure_bind]
    congr 1; funext e'; exact h _ rfl

set_option linter.unusedSimpArgs false in
mutual

theorem refE (env : Env) (ctx : Ctx) : ∀ e : Expr,
    gwalk env ctx (viewE {} e) = viewE {} <$> walkExpr env ctx e
  | .mk attrs sp k => by simp only [viewE, walkExpr]; exact refK env ctx attrs sp k

theorem refK (env : Env) (ctx : Ctx) (attrs : List Attr) (sp : Span) : ∀ k : ExprKind,
    gwalk env ctx (viewK {} attrs sp k) = viewE {} <$> walkKind env ctx attrs sp k
  | .try_ e q => gwalk_question env ctx attrs sp q e (fun c => refE env c e)
  | .ret (some e) => gwalk_ret env ctx attrs sp e (fun c => refE env c e)
  | .ret none => gwalk_ret_none env ctx attrs sp
  | .array es | .tuple es => by
    have h1 := fun c => refEs env c es
    simp [viewK, walkKind, gwalk_plain, enter_empty, h1, viewE]
  | .assign l r => by
    have h1 := fun c => refE env c r
    have h2 : ∀ c, gwalk env c (viewE { visit := false } l) = pure (viewE { visit := false } l) :=
      fun c => gwalk_unvisited env c _ (by rw [viewE_dataEdge])
    simp [viewK, walkKind, gwalk_plain, enter_empty, gwalkList, h1, h2, viewE]
  | .async b | .block _ b | .const_ b | .loop _ b | .tryBlock b | .unsafe_ b => by
    have h1 := fun c => refStmts env c scopeEdge rfl rfl .blockTail b
    simp [viewK, walkKind, gwalk_plain, enter_empty, gwalkList, h1, viewE, enter_scopeEdge]
  | .await e | .cast e _ | .field e _ | .group e | .let_ _ e | .paren e | .rawAddr e
  | .reference e | .unary _ e => by
    have h1 := fun c => refE env c e
    simp [viewK, walkKind, gwalk_plain, enter_empty, gwalkList, h1, viewE]
  | .binary l _ r | .index l r | .repeat_ l r => by
    have h1 := fun c => refE env c l
    have h2 := fun c => refE env c r
    simp [viewK, walkKind, gwalk_plain, enter_empty, gwalkList, h1, h2, viewE]
  | .break_ _ v | .yield_ v => by
    have h1 := fun c => refO env c {} rfl rfl v
    simp [viewK, walkKind, gwalk_plain, enter_empty, gwalkList, h1, viewE]
  | .call f args => by
    have h1 := fun c => refE env c f
    have h2 := fun c => refEs env c args
    simp [viewK, walkKind, gwalk_call, enter_empty, gwalkList, h1, h2, viewE]
  | .methodCall f _ args => by
    have h1 := fun c => refE env c f
    have h2 := fun c => refEs env c args
    simp [viewK, walkKind, gwalk_plain, enter_empty, gwalkList, h1, h2, viewE]
  | .closure sig body => by
    have h1 := fun c => refClosureBody env c sig body
    simp [viewK, walkKind, gwalk_plain, enter_empty, gwalkList, h1, viewE]
  | .forLoop _ e b | .while_ _ e b => by
    have h1 := fun c => refE env c e
    have h2 := fun c => refStmts env c scopeEdge rfl rfl .blockTail b
    simp [viewK, walkKind, gwalk_plain, enter_empty, gwalkList, h1, h2, viewE, enter_scopeEdge]
  | .if_ cd t e => by
    have h1 := fun c => refE env c cd
    have h2 := fun c => refStmts env c scopeEdge rfl rfl .blockTail t
    have h3 := fun c => refO env c scopeEdge rfl rfl e
    simp [viewK, walkKind, gwalk_plain, enter_empty, gwalkList, gwalkList_append, h1, h2, h3, viewE,
      enter_scopeEdge]
  | .match_ e arms => by
    have h1 := fun c => refE env c e
    have h2 := fun c => refArms env c arms
    simp [viewK, walkKind, gwalk_plain, enter_empty, gwalkList, h1, h2, viewE]
  | .range s _ t => by
    have h1 := fun c => refO env c {} rfl rfl s
    have h2 := fun c => refO env c {} rfl rfl t
    simp only [viewK, walkKind, gwalk_plain, enter_empty, gwalkList_append, h1, h2, map_bind,
      bind_map_left, bind_assoc, pure_bind, map_pure]
    congr 1; funext h
    apply walkOpt_bind_congr
    intro o ho
    apply walkOpt_bind_congr
    intro o' ho'
    simp [viewE, viewK, ho, ho']
  | .struct_ _ fs r => by
    have h1 := fun c => refFields env c fs
    have h2 := fun c => refO env c {} rfl rfl r
    simp [viewK, walkKind, gwalk_plain, enter_empty, gwalkList, gwalkList_append, h1, h2, viewE]
  | .mac (.mk p d body) => by
    have h1 := gwalk_macNode env ctx {} rfl rfl attrs sp p d body
      (fun c => refMacBody env c body)
      (fun r => viewE {} (.mk r.1 sp (.mac r.2))) id (fun r => by simp [viewE, viewK])
    simp only [id_map] at h1
    simp [viewK, walkKind, h1, enter_empty]
  | .continue_ _ | .infer | .lit _ | .path _ | .verbatim _ => by
    simp [viewK, walkKind, gwalk_leaf, viewE]
  | .hooked hk arg src => by
    rw [viewK_visit_hooked env ctx {} rfl attrs sp _ rfl]
    rfl

theorem refClosureBody (env : Env) (ctx : Ctx) (sig : CSig) : ∀ e : Expr,
    gwalk env ctx (viewClosureBody { fn := some (.closure sig) } e)
      = viewClosureBody { fn := some (.closure sig) } <$>
          walkClosureBody env (ctx.updateFn (closureInfo sig ctx.fnInfo)) e
  | .mk attrs sp (.block lb b) => by
    have h1 := fun c => refStmts env c scopeEdge rfl rfl .fnTail b
    simp [viewClosureBody, walkClosureBody, ExprKind.isBlock, viewClosureBlock, walkClosureBlock,
      gwalk_plain, gwalkList, h1, enter_scopeEdge, enter_closureEdge]
  | .mk attrs sp k => by
    cases hb : k.isBlock with
    | true =>
      cases k <;> simp [ExprKind.isBlock] at hb
      rename_i lb b
      have h1 := fun c => refStmts env c scopeEdge rfl rfl .fnTail b
      simp [viewClosureBody, walkClosureBody, ExprKind.isBlock, viewClosureBlock, walkClosureBlock,
        gwalk_plain, gwalkList, h1, enter_scopeEdge, enter_closureEdge]
    | false =>
      exact gwalk_closureBody env ctx sig attrs sp k hb (fun c a => refK env c a sp k)

theorem refArmBody (env : Env) (ctx : Ctx) : ∀ e : Expr,
    gwalk env ctx (viewArmBody e) = viewArmBody <$> walkArmBody env ctx e
  | .mk attrs sp k => by
    have ih := fun c a => refK env c a sp k
    cases hb : k.isBlock with
    | true =>
      cases k <;> simp [ExprKind.isBlock] at hb
      rename_i lb b
      simp only [viewArmBody, walkArmBody, ExprKind.isBlock, if_true, ih]
      simp only [walkKind, map_bind, map_pure, viewArmBody, ExprKind.isBlock, if_true, viewE]
    | false => exact gwalk_armBody env ctx attrs sp k hb ih

theorem refEs (env : Env) (ctx : Ctx) : ∀ es : List Expr,
    gwalkList env ctx (viewEs es) = viewEs <$> walkExprs env ctx es
  | [] => by simp [viewEs, gwalkList, walkExprs]
  | e :: es => by
    have h1 := refE env ctx e
    have h2 := refEs env ctx es
    simp [viewEs, gwalkList, walkExprs, h1, h2]

theorem refO (env : Env) (ctx : Ctx) (ed : Edge) (hv : ed.visit = true) (ht : ed.tail = none) :
    ∀ o : Option Expr, gwalkList env ctx (viewO ed o) = viewO ed <$> walkOpt env (ed.enter ctx) o
  | none => by simp [viewO, gwalkList, walkOpt]
  | some e => by
    have h1 := gwalkE_edge (ctx := ctx) hv ht (viewE_dataEdge {} e) (fun c => refE env c e)
    simp [viewO, gwalkList, walkOpt, h1]

theorem refFields (env : Env) (ctx : Ctx) : ∀ fs : List FieldVal,
    gwalkList env ctx (viewFields fs) = viewFields <$> walkFields env ctx fs
  | [] => by simp [viewFields, gwalkList, walkFields]
  | e :: es => by
    have h1 := refField env ctx e
    have h2 := refFields env ctx es
    simp [viewFields, gwalkList, walkFields, h1, h2]

theorem refField (env : Env) (ctx : Ctx) : ∀ f : FieldVal,
    gwalk env ctx (viewField f) = viewField <$> walkField env ctx f
  | .mk attrs m e => by
    have h1 := fun c => refE env c e
    simp [viewField, walkField, gwalk_plain, enter_empty, gwalkList, h1]

theorem refArms (env : Env) (ctx : Ctx) : ∀ as : List Arm,
    gwalkList env ctx (viewArms as) = viewArms <$> walkArms env ctx.subScope as
  | [] => by simp [viewArms, gwalkList, walkArms]
  | e :: es => by
    have h1 := refArm env ctx e
    have h2 := refArms env ctx es
    simp [viewArms, gwalkList, walkArms, h1, h2]

theorem refArm (env : Env) (ctx : Ctx) : ∀ a : Arm,
    gwalk env ctx (viewArm a) = viewArm <$> walkArm env ctx.subScope a
  | .mk attrs p g body => by
    have h1 := fun c => refO env c {} rfl rfl g
    have h2 := fun c => refArmBody env c body
    simp only [viewArm, gwalk_pass env ctx scopeEdge rfl rfl .untouched (.inr rfl), enter_scopeEdge]
    simp [walkArm, gwalkList_append, gwalkList, h1, h2, enter_empty, viewArm]

theorem refStmts (env : Env) (ctx : Ctx) (ed : Edge) (hv : ed.visit = true) (ht : ed.tail = none)
    (tk : TailKind) : ∀ ss : List Stmt,
    gwalkList env ctx (viewStmts ed tk ss) = viewStmts ed tk <$> walkStmts env (ed.enter ctx) tk ss
  | [] => by simp [viewStmts, gwalkList, walkStmts]
  | s :: rest => by
    have h1 := fun tk => refStmt env ctx ed hv ht tk s
    have h2 := refStmts env ctx ed hv ht tk rest
    simp only [viewStmts, gwalkList, walkStmts, h1, h2, map_bind, bind_map_left, bind_assoc, map_pure]
    congr 1; funext s'
    apply walkStmts_bind_congr
    intro r hr
    rw [hr]

theorem refStmt (env : Env) (ctx : Ctx) (ed : Edge) (hv : ed.visit = true) (ht : ed.tail = none)
    (tk : Option TailKind) : ∀ s : Stmt,
    gwalk env ctx (viewStmt ed tk s) = viewStmt ed tk <$> walkStmt env (ed.enter ctx) tk s
  | .localInit attrs _ e dv => by
    have h1 := fun c => refE env c e
    have h2 := fun c => refO env c {} rfl rfl dv
    simp [viewStmt, walkStmt, gwalk_plain env ctx ed hv ht, gwalkList, h1, h2, enter_empty]
  | .localDecl attrs _ => by
    simp [viewStmt, walkStmt, gwalk_leaf env ctx ed hv ht]
  | .item i => by
    have h1 := refItem env ctx ed hv ht i
    simp [viewStmt, walkStmt, h1]
  | .expr e semi => by
    have h1 := refStmtExpr env ctx ed hv ht (if semi then none else tk) e
    simp [viewStmt, walkStmt, h1]
  | .mac attrs (.mk p d body) semi => by
    have h1 := gwalk_macNode env ctx ed hv ht attrs .callSite p d body
      (fun c => refMacBody env c body)
      (fun r => viewStmt ed tk (.mac r.1 r.2 semi)) id (fun r => by simp [viewStmt])
    simp only [id_map] at h1
    simp [viewStmt, walkStmt, h1]

theorem refStmtExpr (env : Env) (ctx : Ctx) (ed : Edge) (hv : ed.visit = true) (ht : ed.tail = none)
    (tk : Option TailKind) : ∀ e : Expr,
    gwalk env ctx (viewE { ed with tail := tk } e)
      = viewE { ed with tail := tk } <$> walkStmtExpr env (ed.enter ctx) tk e
  | .mk attrs sp k => by
    have ih := fun c a => refK env c a sp k
    cases tk with
    | none =>
      have h1 := gwalkE_edge (ctx := ctx) (e := .mk attrs sp k) hv ht (viewE_dataEdge {} _)
        (fun c => by simp only [viewE, walkExpr]; exact ih c attrs)
      have he : { ed with tail := none } = ed := by cases ed; simp_all
      rw [he]
      simp only [walkStmtExpr, h1, walkExpr]
    | some tk =>
      simp only [viewE, walkStmtExpr]
      exact gwalk_tailK env ctx { ed with tail := some tk } tk sp k hv rfl ih attrs

theorem refMacBody (env : Env) (ctx : Ctx) : ∀ b : MacBody,
    gwalkList env ctx (viewMacBody b) = viewMacBody <$> walkMacBody env ctx b
  | .raw ts => by simp [viewMacBody, gwalkList, walkMacBody]
  | .parsed evs => by
    have h1 := refEvs env ctx evs
    simp [viewMacBody, walkMacBody, h1]

theorem refEvs (env : Env) (ctx : Ctx) : ∀ vs : List Ev,
    gwalkList env ctx (viewEvs vs) = viewEvs <$> walkEvs env ctx vs
  | [] => by simp [viewEvs, gwalkList, walkEvs]
  | e :: es => by
    have h1 := refEv env ctx e
    have h2 := refEvs env ctx es
    simp [viewEvs, gwalkList, walkEvs, h1, h2]

theorem refEv (env : Env) (ctx : Ctx) : ∀ v : Ev,
    gwalk env ctx (viewEv v) = viewEv <$> walkEv env ctx v
  | .file attrs items _ => by
    have h1 := refItems env ctx items
    simp [viewEv, walkEv, gwalk_pass env ctx {} rfl rfl .dropped (.inl rfl), enter_empty, h1]
  | .item i _ => by
    have h1 := refItem env ctx {} rfl rfl i
    simp [viewEv, walkEv, h1, enter_empty]
  | .expr e _ => by
    have h1 := refE env ctx e
    simp [viewEv, walkEv, h1]
  | .stmt s _ => by
    have h1 := refStmt env ctx {} rfl rfl none s
    simp [viewEv, walkEv, h1, enter_empty]

theorem refItem (env : Env) (ctx : Ctx) (ed : Edge) (hv : ed.visit = true) (ht : ed.tail = none) :
    ∀ i : Item, gwalk env ctx (viewItem ed i) = viewItem ed <$> walkItem env (ed.enter ctx) i
  | .fn attrs sig body => by
    have h1 := fun c => refStmts env c { scope := true, fn := some (.fn sig) } rfl rfl .fnTail body
    simp [viewItem, walkItem, gwalk_plain env ctx ed hv ht, h1, enter_fnEdge]
  | .impl_ attrs _ items => by
    have h1 := fun c => refImplItems env c items
    simp [viewItem, walkItem, gwalk_plain env ctx ed hv ht, h1]
  | .mod_ attrs _ items => by
    have h1 := fun c => refItems env c items
    simp [viewItem, walkItem, gwalk_plain env ctx ed hv ht, h1]
  | .trait_ attrs _ items => by
    have h1 := fun c => refTraitItems env c items
    simp [viewItem, walkItem, gwalk_plain env ctx ed hv ht, h1]
  | .const_ attrs _ e | .static_ attrs _ e => by
    have h1 := fun c => refE env c e
    simp [viewItem, walkItem, gwalk_plain env ctx ed hv ht, gwalkList, h1]
  | .mac attrs (.mk p d body) => by
    have h1 := gwalk_macNode env ctx ed hv ht attrs .callSite p d body
      (fun c => refMacBody env c body)
      (fun r => viewItem ed (.mac r.1 r.2)) id (fun r => by simp [viewItem])
    simp only [id_map] at h1
    simp [viewItem, walkItem, h1]
  | .macroRules attrs _ _ | .other attrs _ => by
    simp [viewItem, walkItem, gwalk_leaf env ctx ed hv ht]

theorem refItems (env : Env) (ctx : Ctx) : ∀ is : List Item,
    gwalkList env ctx (viewItems is) = viewItems <$> walkItems env ctx is
  | [] => by simp [viewItems, gwalkList, walkItems]
  | e :: es => by
    have h1 := refItem env ctx {} rfl rfl e
    have h2 := refItems env ctx es
    simp [viewItems, gwalkList, walkItems, h1, h2, enter_empty]

theorem refImplItems (env : Env) (ctx : Ctx) : ∀ is : List ImplItem,
    gwalkList env ctx (viewImplItems is) = viewImplItems <$> walkImplItems env ctx is
  | [] => by simp [viewImplItems, gwalkList, walkImplItems]
  | e :: es => by
    have h1 := refImplItem env ctx e
    have h2 := refImplItems env ctx es
    simp [viewImplItems, gwalkList, walkImplItems, h1, h2]

theorem refImplItem (env : Env) (ctx : Ctx) : ∀ i : ImplItem,
    gwalk env ctx (viewImplItem i) = viewImplItem <$> walkImplItem env ctx i
  | .fn attrs sig body => by
    have h1 := fun c => refStmts env c { scope := true, fn := some (.fn sig) } rfl rfl .fnTail body
    simp [viewImplItem, walkImplItem, gwalk_plain, enter_empty, h1, enter_fnEdge]
  | .const_ attrs _ e => by
    have h1 := fun c => refE env c e
    simp [viewImplItem, walkImplItem, gwalk_plain, enter_empty, gwalkList, h1]
  | .mac attrs (.mk p d body) => by
    have h1 := gwalk_macNode env ctx {} rfl rfl attrs .callSite p d body
      (fun c => refMacBody env c body)
      (fun r => viewImplItem (.mac r.1 r.2)) id (fun r => by simp [viewImplItem])
    simp only [id_map] at h1
    simp [viewImplItem, walkImplItem, h1, enter_empty]
  | .other attrs _ => by simp [viewImplItem, walkImplItem, gwalk_leaf]

theorem refTraitItems (env : Env) (ctx : Ctx) : ∀ is : List TraitItem,
    gwalkList env ctx (viewTraitItems is) = viewTraitItems <$> walkTraitItems env ctx is
  | [] => by simp [viewTraitItems, gwalkList, walkTraitItems]
  | e :: es => by
    have h1 := refTraitItem env ctx e
    have h2 := refTraitItems env ctx es
    simp [viewTraitItems, gwalkList, walkTraitItems, h1, h2]

theorem refTraitItem (env : Env) (ctx : Ctx) : ∀ i : TraitItem,
    gwalk env ctx (viewTraitItem i) = viewTraitItem <$> walkTraitItem env ctx i
  | .fn attrs sig body => by
    have h1 := fun c => refStmts env c { scope := true, fn := some (.fn sig) } rfl rfl .fnTail body
    simp [viewTraitItem, walkTraitItem, gwalk_plain, enter_empty, h1, enter_fnEdge]
  | .const_ attrs _ e => by
    have h1 := fun c => refE env c e
    simp [viewTraitItem, walkTraitItem, gwalk_plain, enter_empty, gwalkList, h1]
  | .mac attrs (.mk p d body) => by
    have h1 := gwalk_macNode env ctx {} rfl rfl attrs .callSite p d body
      (fun c => refMacBody env c body)
      (fun r => viewTraitItem (.mac r.1 r.2)) id (fun r => by simp [viewTraitItem])
    simp only [id_map] at h1
    simp [viewTraitItem, walkTraitItem, h1, enter_empty]
  | .other attrs _ => by simp [viewTraitItem, walkTraitItem, gwalk_leaf]

end

end Hooq
