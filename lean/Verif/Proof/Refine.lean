import Verif.Spec.Walk
import Verif.Proof.Attr

/-!
# The concrete walker refines the uniform walk
-/

namespace Hooq

/-- Replace the edge of the root. -/
def RTree.setEdge (ed : Edge) : RTree → RTree
  | .mk d ms ks => .mk { d with edge := ed } ms ks

@[simp] theorem RTree.setEdge_setEdge (a b : Edge) (t : RTree) :
    (t.setEdge a).setEdge b = t.setEdge b := by cases t; rfl

@[simp] theorem RTree.setEdge_addMark (a : Edge) (m : HookData × RTree) (t : RTree) :
    (t.addMark m).setEdge a = (t.setEdge a).addMark m := by cases t; rfl

@[simp] theorem RTree.setEdge_callee (a : Edge) (t : RTree) : (t.setEdge a).callee = t.callee := by
  cases t; simp [RTree.setEdge, RTree.callee]

@[simp] theorem RTree.setEdge_start (a : Edge) (t : RTree) : (t.setEdge a).start = t.start := by
  cases t; simp [RTree.setEdge, RTree.start]

@[simp] theorem RTree.setEdge_asPath (a : Edge) (t : RTree) : (t.setEdge a).asPath = t.asPath := by
  cases t; simp [RTree.setEdge, RTree.asPath]

@[simp] theorem RTree.setEdge_rear (a : Edge) (t : RTree) : (t.setEdge a).rear = t.rear := by
  cases t; simp [RTree.setEdge, RTree.rear]

theorem hnode_setEdge (a b : Edge) (tag attrs sp lm ks rr) :
    (hnode a tag attrs sp lm ks rr).setEdge b = hnode b tag attrs sp lm ks rr := rfl

theorem onode_setEdge (m : AttrMode) (a b : Edge) (tag attrs sp ks) :
    (onode m a tag attrs sp ks).setEdge b = onode m b tag attrs sp ks := rfl

mutual
theorem viewE_edge (a b : Edge) : ∀ e : Expr, (viewE a e).setEdge b = viewE b e
  | .mk attrs sp k => by simp only [viewE]; exact viewK_edge a b attrs sp k
theorem viewK_edge (a b : Edge) (attrs : List Attr) (sp : Span) :
    ∀ k : ExprKind, (viewK a attrs sp k).setEdge b = viewK b attrs sp k
  | .hooked hk arg src => by
    simp only [viewK]
    split
    · rfl
    · rw [RTree.setEdge_addMark, viewE_edge a b arg]
  | .array _ | .assign _ _ | .async _ | .await _ | .binary _ _ _ | .block _ _ | .break_ _ _
  | .call _ _ | .cast _ _ | .closure _ _ | .const_ _ | .continue_ _ | .field _ _ | .forLoop _ _ _
  | .group _ | .if_ _ _ _ | .index _ _ | .infer | .let_ _ _ | .lit _ | .loop _ _ | .mac _
  | .match_ _ _ | .methodCall _ _ _ | .paren _ | .path _ | .range _ _ _ | .rawAddr _
  | .reference _ | .repeat_ _ _ | .ret _ | .struct_ _ _ _ | .try_ _ _ | .tryBlock _ | .tuple _
  | .unary _ _ | .unsafe_ _ | .verbatim _ | .while_ _ _ _ | .yield_ _ => by
    simp only [viewK, hnode_setEdge, onode_setEdge]
end

theorem addMark_asPath (t : RTree) (hk : HookData) (s : RTree) :
    (t.addMark (hk, s)).asPath = hookPath t.asPath hk := by
  cases t; simp [RTree.addMark, RTree.asPath, List.foldl_append]

theorem addMark_callee (t : RTree) (hk : HookData) (s : RTree) :
    (t.addMark (hk, s)).callee = hookCallee t.callee hk := by
  cases t; simp [RTree.addMark, RTree.callee, List.foldl_append]

theorem addMark_start (t : RTree) (hk : HookData) (s : RTree) :
    (t.addMark (hk, s)).start = hookStart t.start hk := by
  cases t; simp [RTree.addMark, RTree.start, List.foldl_append]

mutual
theorem viewE_asPath (ed : Edge) : ∀ e : Expr, (viewE ed e).asPath = e.asPath
  | .mk attrs sp k => by simp only [viewE]; exact viewK_asPath ed attrs sp k
theorem viewK_asPath (ed : Edge) (attrs : List Attr) (sp : Span) :
    ∀ k : ExprKind, (viewK ed attrs sp k).asPath = (Expr.mk attrs sp k).asPath
  | .hooked hk arg src => by
    have ih := fun ed => viewE_asPath ed arg
    have key : hookPath arg.asPath hk = (Expr.mk attrs sp (.hooked hk arg src)).asPath := by
      cases hk with | mk a m b c sh d e => cases m <;> cases sh <;> simp [hookPath, Expr.asPath]
    simp only [viewK]
    split
    · simp only [hnode, RTree.asPath, List.map_nil, List.foldl_nil, RTree.asPathHead,
        addMark_asPath, ih, key]
    · simp only [addMark_asPath, ih, key]
  | .array _ | .assign _ _ | .async _ | .await _ | .binary _ _ _ | .block _ _ | .break_ _ _
  | .call _ _ | .cast _ _ | .closure _ _ | .const_ _ | .continue_ _ | .field _ _ | .forLoop _ _ _
  | .group _ | .if_ _ _ _ | .index _ _ | .infer | .let_ _ _ | .lit _ | .loop _ _ | .mac _
  | .match_ _ _ | .methodCall _ _ _ | .paren _ | .path _ | .range _ _ _ | .rawAddr _
  | .reference _ | .repeat_ _ _ | .ret _ | .struct_ _ _ _ | .try_ _ _ | .tryBlock _ | .tuple _
  | .unary _ _ | .unsafe_ _ | .verbatim _ | .while_ _ _ _ | .yield_ _ => by
    simp [viewK, hnode, onode, RTree.asPath, Expr.asPath]
end

mutual
theorem viewE_callee (ed : Edge) : ∀ e : Expr, (viewE ed e).callee = e.callee
  | .mk attrs sp k => by simp only [viewE]; exact viewK_callee ed attrs sp k
theorem viewK_callee (ed : Edge) (attrs : List Attr) (sp : Span) :
    ∀ k : ExprKind, (viewK ed attrs sp k).callee = (Expr.mk attrs sp k).callee
  | .hooked hk arg src => by
    have ih := fun ed => viewE_callee ed arg
    have key : hookCallee arg.callee hk = (Expr.mk attrs sp (.hooked hk arg src)).callee := by
      cases hk with | mk a m b c sh d e => cases m <;> cases sh <;> simp [hookCallee, Expr.callee]
    simp only [viewK]
    split
    · simp only [hnode, RTree.callee, List.map_nil, List.foldl_nil, RTree.calleeHead,
        addMark_callee, ih, key]
    · simp only [addMark_callee, ih, key]
  | .call f _ => by
    simp [viewK, hnode, RTree.callee, RTree.asPathHead, viewE_asPath, Expr.callee]
  | .array _ | .assign _ _ | .async _ | .await _ | .binary _ _ _ | .block _ _ | .break_ _ _
  | .cast _ _ | .closure _ _ | .const_ _ | .continue_ _ | .field _ _ | .forLoop _ _ _
  | .group _ | .if_ _ _ _ | .index _ _ | .infer | .let_ _ _ | .lit _ | .loop _ _ | .mac _
  | .match_ _ _ | .methodCall _ _ _ | .paren _ | .path _ | .range _ _ _ | .rawAddr _
  | .reference _ | .repeat_ _ _ | .ret _ | .struct_ _ _ _ | .try_ _ _ | .tryBlock _ | .tuple _
  | .unary _ _ | .unsafe_ _ | .verbatim _ | .while_ _ _ _ | .yield_ _ => by
    simp [viewK, hnode, onode, RTree.callee, Expr.callee]
end

mutual
theorem viewE_start (ed : Edge) : ∀ e : Expr, (viewE ed e).start = e.start
  | .mk attrs sp k => by simp only [viewE]; exact viewK_start ed attrs sp k
theorem viewK_start (ed : Edge) (attrs : List Attr) (sp : Span) :
    ∀ k : ExprKind, (viewK ed attrs sp k).start = (Expr.mk attrs sp k).start
  | .hooked hk arg src => by
    have ih := fun ed => viewE_start ed arg
    have key : hookStart arg.start hk = (Expr.mk attrs sp (.hooked hk arg src)).start := by
      cases hk with | mk a m b c sh d e => cases m <;> simp [hookStart, Expr.start]
    simp only [viewK]
    split
    · simp only [hnode, RTree.start, List.map_nil, List.foldl_nil, RTree.startHead, if_true,
        addMark_start, ih, key]
    · simp only [addMark_start, ih, key]
  | .range none _ _ => by
    simp [viewK, hnode, RTree.start, Expr.start]
  | .range (some e) _ _ => by
    have := viewE_start {} e
    simp [viewK, hnode, viewO, RTree.start, RTree.startHead, Expr.start, this]
  | .assign e _ => by
    have := viewE_start { visit := false } e
    simp [viewK, hnode, RTree.start, RTree.startHead, Expr.start, this]
  | .await e | .binary e _ _ | .call e _ | .cast e _ | .field e _ | .index e _
  | .methodCall e _ _ | .try_ e _ => by
    have := viewE_start {} e
    simp [viewK, hnode, RTree.start, RTree.startHead, Expr.start, this]
  | .array _ | .async _ | .block _ _ | .break_ _ _
  | .closure _ _ | .const_ _ | .continue_ _ | .forLoop _ _ _
  | .group _ | .if_ _ _ _ | .infer | .let_ _ _ | .lit _ | .loop _ _ | .mac _
  | .match_ _ _ | .paren _ | .path _ | .rawAddr _
  | .reference _ | .repeat_ _ _ | .ret _ | .struct_ _ _ _ | .tryBlock _ | .tuple _
  | .unary _ _ | .unsafe_ _ | .verbatim _ | .while_ _ _ _ | .yield_ _ => by
    simp [viewK, hnode, onode, RTree.start, Expr.start]
end

theorem addMark_rear (t : RTree) (hk : HookData) (s : RTree) :
    (t.addMark (hk, s)).rear = hookRear t.rear hk := by
  cases t; simp [RTree.addMark, RTree.rear, List.foldl_append]

mutual
theorem viewE_rear (ed : Edge) : ∀ e : Expr, (viewE ed e).rear = e.rear
  | .mk attrs sp k => by simp only [viewE]; exact viewK_rear ed attrs sp k
theorem viewK_rear (ed : Edge) (attrs : List Attr) (sp : Span) :
    ∀ k : ExprKind, (viewK ed attrs sp k).rear = (Expr.mk attrs sp k).rear
  | .hooked hk arg src => by
    have ih := fun ed => viewE_rear ed arg
    have key : hookRear arg.rear hk = (Expr.mk attrs sp (.hooked hk arg src)).rear := by
      cases hk with | mk a m b c sh d e => cases sh <;> simp [hookRear, Expr.rear]
    simp only [viewK]
    split
    · simp only [hnode, RTree.rear, List.map_nil, List.foldl_nil, RTree.rearLast, addMark_rear, ih, key]
    · simp only [addMark_rear, ih, key]
  | .range none _ (some e) | .range (some _) _ (some e) => by
    have := viewE_rear {} e
    simp [viewK, hnode, viewO, RTree.rear, RTree.rearLast, Expr.rear, this]
  | .range none _ none | .range (some _) _ none => by
    simp [viewK, hnode, RTree.rear, Expr.rear]
  | .assign _ e | .binary _ _ e | .reference e | .rawAddr e | .unary _ e | .let_ _ e
  | .ret (some e) | .break_ _ (some e) | .yield_ (some e) => by
    have := viewE_rear {} e
    simp [viewK, hnode, viewO, RTree.rear, RTree.rearLast, Expr.rear, this]
  | .closure sig e => by
    have := viewBody_rear { fn := some (.closure sig) } e
    cases ho : sig.output <;>
    simp [viewK, hnode, RTree.rear, RTree.rearLast, Expr.rear, this, ho]
  | .cast _ _ | .ret none | .break_ _ none | .yield_ none => by
    simp [viewK, hnode, viewO, RTree.rear, RTree.rearLast, Expr.rear, Rear.inner]
  | .array _ | .async _ | .await _ | .block _ _ | .call _ _ | .const_ _ | .continue_ _ | .field _ _
  | .forLoop _ _ _ | .group _ | .if_ _ _ _ | .index _ _ | .infer | .lit _ | .loop _ _ | .mac _
  | .match_ _ _ | .methodCall _ _ _ | .paren _ | .path _ | .repeat_ _ _ | .struct_ _ _ _
  | .try_ _ _ | .tryBlock _ | .tuple _ | .unsafe_ _ | .verbatim _ | .while_ _ _ _ => by
    simp [viewK, hnode, onode, RTree.rear, Expr.rear]
theorem viewBody_rear (ed : Edge) : ∀ e : Expr, (viewClosureBody ed e).rear = e.rear
  | .mk a s k => by
    have ih := viewK_rear { ed with tail := some .fnTail } a s k
    simp only [viewClosureBody]
    split
    · rename_i hb
      cases k <;> simp [ExprKind.isBlock] at hb
      simp [viewClosureBlock, hnode, RTree.rear, Expr.rear]
    · exact ih
end

/-! ## Monad lemmas -/

theorem W.lift_ok {α : Type} (a : α) : W.lift (.ok a) = pure a := rfl

theorem W.lift_error_bind {α β : Type} (e : Err) (f : α → W β) :
    (W.lift (.error e) >>= f) = W.lift (.error e) := rfl

theorem W.map_lift_error {α β : Type} (e : Err) (f : α → β) :
    (f <$> W.lift (.error e) : W β) = W.lift (.error e) := rfl

/-- Case distinction on a lifted step under a bind. -/
theorem W.lift_bind_congr {α β : Type} {x : Except Err α} {f g : α → W β}
    (h : ∀ a, x = .ok a → f a = g a) : (W.lift x >>= f) = (W.lift x >>= g) := by
  cases x with
  | error e => rfl
  | ok a => simp only [W.lift_ok, pure_bind]; exact h a rfl

theorem render_kind {env : Env} {r : RInfo} {hk : HookData} (h : render env r = .ok hk) :
    hk.kind = r.kind ∧ hk.span = r.span ∧ hk.count = r.count ∧ hk.exc = r.ctx.method.val.exc ∧
      hk.mode = r.ctx.method.val.mode := by
  simp only [render] at h
  cases he : expandMethod r with
  | error e => simp [he, bind, Except.bind] at h
  | ok ts =>
    simp only [he, bind, Except.bind] at h
    cases hm : r.ctx.method.val with
    | insert dt a b =>
      simp only [hm] at h
      split at h
      · simp at h
      · simp at h
      · simp at h; subst h; simp [Method.exc, Method.mode]
    | replace a b =>
      simp only [hm] at h
      split at h
      · simp at h; subst h; simp [Method.exc, Method.mode]
      · simp at h

/-- A hook that is built has the requested kind and span. -/
theorem hookExpr_bind_congr {α : Type} {env : Env} {apply : Bool} {kind : Kind} {sp : Span}
    {re : Rear} {ctx : Ctx} {f g : Option HookData → W α}
    (h : ∀ o, (∀ hk, o = some hk → hk.kind = kind ∧ hk.span = sp) → f o = g o) :
    (hookExpr env apply kind sp re ctx >>= f) = (hookExpr env apply kind sp re ctx >>= g) := by
  funext c
  simp only [bind, StateT.bind, hookExpr]
  split
  · split
    · cases hr : render env { ctx := ctx, kind := kind, count := (c.countUp kind).get kind, span := sp, rear := re } with
      | error e => rfl
      | ok hk =>
        simp only [Except.map, Except.bind]
        rw [h]
        intro hk' he
        cases he
        have := render_kind hr
        exact ⟨this.1, this.2.1⟩
    · simp only [Except.bind]
      rw [h]; intro hk he; cases he
  · simp only [Except.bind]
    rw [h]; intro hk he; cases he

/-! ## The uniform walk on the node forms that occur -/

theorem enter_empty (c : Ctx) : Edge.enter {} c = c := rfl

theorem gwalk_plain (env : Env) (ctx : Ctx) (ed : Edge) (hv : ed.visit = true) (ht : ed.tail = none)
    (l : String) (attrs sp lm ks rr) :
    gwalk env ctx (hnode ed (.other l) attrs sp lm ks rr) = (do
      let h ← W.lift (handleAttrs env attrs (ed.enter ctx))
      let ks' ← gwalkList env h.ctx ks
      pure (hnode ed (.other l) h.attrs sp lm ks' rr)) := by
  simp [hnode, gwalk, hv, ht, RTree.built, Data.handle, Data.handles, Data.opens, gopen, gtarget, gtail]

theorem gwalk_call (env : Env) (ctx : Ctx) (attrs sp lm ks) :
    gwalk env ctx (hnode {} .call attrs sp lm ks) = (do
      let h ← W.lift (handleAttrs env attrs ctx)
      let ks' ← gwalkList env h.ctx ks
      pure (hnode {} .call h.attrs sp lm ks')) := by
  simp [hnode, gwalk, RTree.built, Data.handle, Data.handles, Data.opens, gopen, gtarget, gtail, enter_empty]

theorem gwalk_mac (env : Env) (ctx : Ctx) (ed : Edge) (hv : ed.visit = true) (ht : ed.tail = none)
    (attrs sp lm ks) :
    gwalk env ctx (hnode ed .mac attrs sp lm ks) = (do
      let h ← W.lift (handleAttrs env attrs (ed.enter ctx))
      let ks' ← gopen h.ctx.hookInMacros ks (gwalkList env h.ctx ks)
      pure (hnode ed .mac h.attrs sp lm ks')) := by
  simp [hnode, gwalk, hv, ht, RTree.built, Data.handle, Data.handles, Data.opens, gtarget, gtail]

theorem gwalk_leaf (env : Env) (ctx : Ctx) (ed : Edge) (hv : ed.visit = true) (ht : ed.tail = none)
    (m : AttrMode) (hm : m = .tailOnly ∨ m = .untouched)
    (tag : Tag) (htag : (∃ l, tag = .other l) ∨ ∃ p, tag = .path p) (attrs sp) :
    gwalk env ctx (onode m ed tag attrs sp []) = pure (onode m ed tag attrs sp []) := by
  rcases hm with rfl | rfl <;> rcases htag with ⟨l, rfl⟩ | ⟨l, rfl⟩ <;>
  simp [onode, gwalk, hv, ht, gwalkList, RTree.built, Data.handle, Data.handles, Data.opens, gopen,
    gtarget, gtail, W.lift_ok]

theorem gwalk_pass (env : Env) (ctx : Ctx) (ed : Edge) (hv : ed.visit = true) (ht : ed.tail = none)
    (m : AttrMode) (hm : m = .dropped ∨ m = .untouched) (l : String) (attrs sp ks) :
    gwalk env ctx (onode m ed (.other l) attrs sp ks) = (do
      let ks' ← gwalkList env (ed.enter ctx) ks
      pure (onode m ed (.other l) (if m = .dropped then [] else attrs) sp ks')) := by
  rcases hm with rfl | rfl <;>
  simp [onode, gwalk, hv, ht, RTree.built, Data.handle, Data.handles, Data.opens, gopen,
    gtarget, gtail, W.lift_ok]

theorem gwalk_unvisited (env : Env) (ctx : Ctx) (t : RTree) (h : t.data.edge.visit = false) :
    gwalk env ctx t = pure t := by
  cases t; simp only [RTree.data] at h; simp [gwalk, h]

theorem gwalkList_append (env : Env) (ctx : Ctx) (a b : List RTree) :
    gwalkList env ctx (a ++ b) = (do
      let a' ← gwalkList env ctx a
      let b' ← gwalkList env ctx b
      pure (a' ++ b')) := by
  induction a with
  | nil => simp [gwalkList]
  | cons x a ih => simp [gwalkList, ih]

/-! ## Edges -/

theorem gtarget_edge (env : Env) (h : Handled) (d : Data) (ed : Edge) (ks ks' : List RTree) :
    gtarget env h { d with edge := ed } ks ks' = RTree.setEdge ed <$> gtarget env h d ks ks' := by
  simp only [gtarget]
  cases htag : d.tag with
  | question q c =>
    simp only [map_bind]
    congr 1; funext o
    cases o with
    | none => rfl
    | some hk => cases he : hk.exc <;> simp [RTree.setEdge, he]
  | ret =>
    cases ks' with
    | nil => rfl
    | cons k ks' =>
      simp only
      split
      · simp only [map_bind]
        congr 1; funext o
        cases o <;> rfl
      · rfl
  | call => rfl
  | path p => rfl
  | mac => rfl
  | other l => rfl

theorem built_setEdge (ed : Edge) (t : RTree) : (t.setEdge ed).built = t.built := by
  cases t; rfl

theorem gwalk_edge (env : Env) (ctx : Ctx) (ed : Edge) (t : RTree) (hv : ed.visit = true)
    (ht : ed.tail = none) (he : t.data.edge = {}) :
    gwalk env ctx (t.setEdge ed) = RTree.setEdge ed <$> gwalk env (ed.enter ctx) t := by
  obtain ⟨d, ms, ks⟩ := t
  simp only [RTree.data] at he
  have hh : ({ d with edge := ed } : Data).handle env (ed.enter ctx) = d.handle env (ed.enter ctx) := by
    simp [Data.handle, Data.handles, ht, he]
  have hb : (RTree.mk { d with edge := ed } ms ks).built = (RTree.mk d ms ks).built := rfl
  simp only [RTree.setEdge, gwalk, hv, he, hb, if_true]
  split
  · rfl
  · simp only [map_bind, enter_empty, hh]
    congr 1; funext h
    have ho : ({ d with edge := ed } : Data).opens h.ctx = d.opens h.ctx := rfl
    simp only [ho, gtarget_edge, gtail, ht, he, bind_pure, map_pure, bind_pure_comp]

theorem gwalk_tail (env : Env) (ctx : Ctx) (ed : Edge) (tk : TailKind) (d : Data) (ks : List RTree)
    (hv : ed.visit = true) (ht : ed.tail = some tk) (he : d.edge = {})
    (hm : d.mode = .handled ∨ d.mode = .tailOnly) (hb : (RTree.mk d [] ks).built = false) :
    gwalk env ctx (.mk { d with edge := ed } [] ks) = (do
      let h ← W.lift (handleAttrs env d.attrs (ed.enter ctx))
      let t ← gwalk env h.ctx (.mk { d with attrs := h.attrs } [] ks)
      gtail env h { d with edge := ed } ks (t.setEdge ed)) := by
  have hb' : (RTree.mk { d with edge := ed } [] ks).built = false := hb
  have hh : ({ d with edge := ed } : Data).handle env (ed.enter ctx)
      = handleAttrs env d.attrs (ed.enter ctx) := by
    rcases hm with hm | hm <;> simp [Data.handle, Data.handles, hm, ht]
  simp only [gwalk, hv, hb', hh, if_true, Bool.false_eq_true, if_false]
  apply W.lift_bind_congr
  intro h hok
  have hb2 : (RTree.mk { d with attrs := h.attrs } [] ks).built = false := hb
  have hag : ({ d with attrs := h.attrs } : Data).handle env h.ctx = .ok h := by
    rcases hm with hm | hm
    · simp [Data.handle, Data.handles, hm, handleAttrs_again hok]
    · have := handleAttrs_isSkipped hok
      simp [Data.handle, Data.handles, hm, he, ← this]
  have hgt : ∀ ks', gtarget env h { d with attrs := h.attrs } ks ks' = gtarget env h d ks ks' := by
    intro ks'; simp only [gtarget]
  have ho : ({ d with edge := ed } : Data).opens h.ctx = d.opens h.ctx := rfl
  have ho2 : ({ d with attrs := h.attrs } : Data).opens h.ctx = d.opens h.ctx := rfl
  have hg0 : ∀ t, gtail env h { d with attrs := h.attrs } ks t = pure t := by
    intro t; simp [gtail, he]
  have hv2 : d.edge.visit = true := by simp [he]
  have hen : d.edge.enter h.ctx = h.ctx := by rw [he]; rfl
  simp only [hv2, hb2, hen, hag, hgt, ho, ho2, hg0, W.lift_ok, pure_bind, bind_pure,
    Bool.false_eq_true, if_false, gtarget_edge, bind_assoc, bind_map_left, if_true]

/-! ## Shape of the view of an expression -/

theorem viewK_shape (sp : Span) (k : ExprKind) (hk : k.isHooked = false) (hn : k.noAttrs = false) :
    ∃ (tag : Tag) (mode : AttrMode) (sp' : Span) (lm : Bool) (rr : RearRule)
      (ks : List RTree),
      (∀ ed attrs, viewK ed attrs sp k = .mk ⟨ed, tag, mode, attrs, sp', lm, rr⟩ [] ks) ∧
      (mode = .handled ∨ mode = .tailOnly) ∧ (∀ q, tag ≠ .question q true) := by
  cases k <;> first
    | (simp [ExprKind.isHooked] at hk; done)
    | (simp [ExprKind.noAttrs] at hn; done)
    | exact ⟨_, _, _, _, _, _, fun _ _ => rfl, .inl rfl, fun _ => by simp⟩
    | exact ⟨_, _, _, _, _, _, fun _ _ => rfl, .inr rfl, fun _ => by simp⟩

theorem viewK_visit_hooked (env : Env) (ctx : Ctx) (ed : Edge) (hv : ed.visit = true)
    (attrs sp) (k : ExprKind) (hk : k.isHooked = true) :
    gwalk env ctx (viewK ed attrs sp k) = W.lift (.error .notSource) := by
  cases k <;> simp [ExprKind.isHooked] at hk
  rename_i hk arg src
  simp only [viewK]
  split
  · simp [hnode, gwalk, hv, RTree.built]
  · rw [← viewE_edge {} ed arg]
    cases hv' : viewE {} arg
    simp [RTree.setEdge, RTree.addMark, gwalk, hv, RTree.built]

/-- The tail handling of the concrete walker refines the uniform walk below an edge
with a tail label. -/
theorem walkTail_refine (env : Env) (ctx : Ctx) (ed : Edge) (tk : TailKind) (sp : Span)
    (k : ExprKind) (hv : ed.visit = true) (ht : ed.tail = some tk)
    (ih : ∀ c attrs, viewE {} <$> walkKind env c attrs sp k = gwalk env c (viewK {} attrs sp k))
    (attrs : List Attr) :
    viewE ed <$> walkTail env (ed.enter ctx) tk attrs sp k (fun c a => walkKind env c a sp k)
      = gwalk env ctx (viewK ed attrs sp k) := by
  cases hk : k.isHooked with
  | true =>
    rw [viewK_visit_hooked env ctx ed hv attrs sp k hk]
    simp [walkTail, hk, W.map_lift_error]
  | false =>
    cases hn : k.noAttrs with
    | true =>
      cases k <;> simp [ExprKind.noAttrs] at hn
      simp [walkTail, ExprKind.isHooked, ExprKind.noAttrs, viewE, viewK, onode, gwalk, hv, RTree.built,
        Data.handle, Data.handles, Data.opens, gopen, gwalkList, gtarget, gtail, ht, W.lift_ok]
    | false =>
      obtain ⟨tag, mode, sp', lm, rr, ks, hview, hmode, htag⟩ := viewK_shape sp k hk hn
      have hb : (RTree.mk ⟨{}, tag, mode, attrs, sp', lm, rr⟩ [] ks).built = false := by
        cases tag <;> simp_all [RTree.built]
      rw [hview]
      have := gwalk_tail env ctx ed tk ⟨{}, tag, mode, attrs, sp', lm, rr⟩ ks hv ht rfl hmode hb
      simp only at this
      rw [this]
      simp only [walkTail, hk, hn, Bool.false_eq_true, if_false, map_bind]
      congr 1; funext h
      have ih' := ih h.ctx h.attrs
      rw [hview] at ih'
      rw [← ih', bind_map_left]
      congr 1; funext e'
      simp only [gtail, ht]
      have hmu : mode ≠ .untouched := by rcases hmode with rfl | rfl <;> simp
      simp only [hmu, if_false, viewE_edge, viewE_callee, viewE_start, viewE_rear]
      split
      · simp only [map_bind]
        apply hookExpr_bind_congr
        intro o ho
        have hve : viewE {} (.mk h.attrs sp k) = .mk ⟨{}, tag, mode, h.attrs, sp', lm, rr⟩ [] ks := by
          simp only [viewE, hview]
        cases o with
        | none => rfl
        | some hkd =>
          have hkk : ¬ (hkd.kind = .question ∧ hkd.exc = true) := by simp [(ho _ rfl).1]
          simp only [map_pure, mkHooked, viewE, viewK, hkk, if_false, hview]
      · rfl

/-! ## Postconditions -/

/-- Every successful result satisfies `P`. -/
def W.Post {α : Type} (x : W α) (P : α → Prop) : Prop := ∀ c a c', x c = .ok (a, c') → P a

theorem W.Post.map_congr {α β : Type} {x : W α} {P : α → Prop} (hx : x.Post P) {f g : α → β}
    (h : ∀ a, P a → f a = g a) : f <$> x = g <$> x := by
  funext c
  simp only [Functor.map, StateT.map]
  cases hc : x c with
  | error e => rfl
  | ok r => simp only [bind, Except.bind, pure, Except.pure]; rw [h _ (hx c r.1 r.2 hc)]

theorem W.Post.pure {α : Type} {P : α → Prop} {a : α} (h : P a) : W.Post (pure a) P := by
  intro c b c' hb
  cases hb
  exact h

theorem W.Post.bind {α β : Type} {P : β → Prop} {x : W α} {f : α → W β}
    (h : ∀ a, W.Post (f a) P) : W.Post (x >>= f) P := by
  intro c b c' hb
  simp only [Bind.bind, StateT.bind] at hb
  cases hc : x c with
  | error e => simp [hc, Except.bind] at hb
  | ok r => simp only [hc, Except.bind] at hb; exact h _ _ _ _ hb

theorem W.Post.error {α : Type} {P : α → Prop} (e : Err) : W.Post (W.lift (.error e)) P := by
  intro c b c' hb
  cases hb

theorem W.Post.bind' {α β : Type} {P : β → Prop} {Q : α → Prop} {x : W α} {f : α → W β}
    (hx : x.Post Q) (h : ∀ a, Q a → W.Post (f a) P) : W.Post (x >>= f) P := by
  intro c b c' hb
  simp only [Bind.bind, StateT.bind] at hb
  cases hc : x c with
  | error e => simp [hc, Except.bind] at hb
  | ok r => simp only [hc, Except.bind] at hb; exact h _ (hx _ _ _ hc) _ _ _ hb

local macro "post_steps" : tactic => `(tactic|
  repeat' (with_reducible first
    | split
    | (refine W.Post.bind (fun _ => ?_))
    | refine W.Post.pure ?_
    | exact W.Post.error _))

theorem walkKind_notBlock (env : Env) (ctx : Ctx) (attrs : List Attr) (sp : Span) (k : ExprKind)
    (hk : k.isBlock = false) :
    W.Post (walkKind env ctx attrs sp k) (fun e => e.kind.isBlock = false) := by
  cases k
  case block => simp [ExprKind.isBlock] at hk
  case ret v => cases v <;> simp only [walkKind] <;> post_steps <;> rfl
  all_goals (simp only [walkKind]; post_steps <;> rfl)

theorem walkTail_notBlock (env : Env) (ctx : Ctx) (tk : TailKind) (attrs : List Attr) (sp : Span)
    (k : ExprKind) (hk : k.isBlock = false) :
    W.Post (walkTail env ctx tk attrs sp k (fun c a => walkKind env c a sp k))
      (fun e => e.kind.isBlock = false) := by
  simp only [walkTail]
  split
  · exact W.Post.error _
  · split
    · exact W.Post.pure hk
    · refine W.Post.bind (fun h => ?_)
      refine W.Post.bind' (walkKind_notBlock env h.ctx h.attrs sp k hk) (fun e he => ?_)
      split
      · apply W.Post.bind
        intro o
        cases o with
        | none => exact W.Post.pure he
        | some hkd => exact W.Post.pure rfl
      · exact W.Post.pure he

theorem walkStmts_bind_congr {α : Type} {env : Env} {ctx : Ctx} {tk : TailKind} {rest : List Stmt}
    {f g : List Stmt → W α} (h : ∀ r, r.isEmpty = rest.isEmpty → f r = g r) :
    (walkStmts env ctx tk rest >>= f) = (walkStmts env ctx tk rest >>= g) := by
  cases rest with
  | nil => simp only [walkStmts, pure_bind]; exact h [] rfl
  | cons s rest =>
    simp only [walkStmts, bind_assoc, pure_bind]
    congr 1; funext s'; congr 1; funext r'
    exact h _ rfl

end Hooq
