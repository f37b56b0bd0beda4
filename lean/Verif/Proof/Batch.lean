import Verif.Proof.Congr
import Verif.Proof.Locality
import Verif.Proof.RefineMain
import Verif.Spec.Batch

/-!
# Two walks of the same code
-/

namespace Hooq

/-- Contexts in which the walk does the same: the order of the bindings and the
functions further out than the enclosing one may differ. -/
structure Ctx.Alike (c c' : Ctx) : Prop where
  method : c.method = c'.method
  targets : c.targets = c'.targets
  tailIdents : c.tailIdents = c'.tailIdents
  ignoreIdents : c.ignoreIdents = c'.ignoreIdents
  resultTypes : c.resultTypes = c'.resultTypes
  hookInMacros : c.hookInMacros = c'.hookInMacros
  bindings : AMap.Same c.bindings c'.bindings
  skip : c.skip = c'.skip
  fnVal : c.fnInfo.val = c'.fnInfo.val
  fnNear : nearestFn (c.fnInfo.val :: c.fnInfo.anc) = nearestFn (c'.fnInfo.val :: c'.fnInfo.anc)

theorem agrees_alike {env : Env} {s s' : Settings} {up up' : List Data} {c c' : Ctx}
    (hb : s.bindings.keys.Nodup) (hb' : s'.bindings.keys.Nodup) (h : Agrees env s up c)
    (h' : Agrees env s' up' c') (e : SameInForce env s up s' up') : c.Alike c' := by
  have hm : c.method = c'.method := by
    have := h.method
    rw [e.method, ← h'.method] at this
    obtain ⟨h1, h2⟩ := List.cons.inj this
    cases hc : c.method; cases hc' : c'.method
    simp only [hc, hc'] at h1 h2
    rw [h1, h2]
  have hname : fnNameAt up = fnNameAt up' := by
    have h2 := e.enclosing
    simp only [fnNameAt, e.innermost]
    cases innermostFn up' with
    | none => rfl
    | some f =>
      cases f with
      | fn sig => rfl
      | closure sig =>
        cases h3 : enclosingFn up <;> cases h4 : enclosingFn up' <;> simp_all
  have hfn : fnInfoOf up = fnInfoOf up' := by
    funext f
    cases f <;> simp [fnInfoOf, hname]
  constructor
  · exact hm
  · rw [h.targets, h'.targets, e.targets]
  · rw [h.tailIdents, h'.tailIdents, e.tailIdents]
  · rw [h.ignoreIdents, h'.ignoreIdents, e.ignoreIdents]
  · rw [h.resultTypes, h'.resultTypes, e.resultTypes]
  · rw [h.hookInMacros, h'.hookInMacros, e.hookInMacros]
  · exact ⟨fun k => by rw [h.bindings, h'.bindings, e.bindings], h.nodup hb, h'.nodup hb'⟩
  · have h1 := h.skipAll
    have h2 := h'.skipAll
    have h3 := h.skipped
    have h4 := h'.skipped
    rw [e.skippedBelow] at h1
    rw [e.skipped, ← h4] at h3
    rw [← h2] at h1
    simp only [Ctx.isSkipped] at h3
    cases hc : c.skip with
    | none => cases hc' : c'.skip <;> simp_all
    | some a =>
      cases hc' : c'.skip with
      | none => simp_all
      | some b => cases a <;> cases b <;> simp_all
  · rw [h.fnVal, h'.fnVal, e.innermost, hfn]
  · rw [h.fnNear, h'.fnNear, e.enclosing]

/-! ## Rendering -/

theorem recount_refl (x x' : String) (ts : List TT) : List.Forall₂ (TT.Recount x x') ts ts := by
  induction ts with
  | nil => exact .nil
  | cons t ts ih => exact .cons (.same t) ih

theorem recount_append {x x' : String} {a a' b b' : List TT} (h : List.Forall₂ (TT.Recount x x') a a')
    (h' : List.Forall₂ (TT.Recount x x') b b') : List.Forall₂ (TT.Recount x x') (a ++ b) (a' ++ b') := by
  induction h with
  | nil => exact h'
  | cons h1 _ ih => exact .cons h1 ih

theorem recount_setSpan {x x' : String} {ts ts' : List TT} (h : List.Forall₂ (TT.Recount x x') ts ts')
    (sp : Span) : List.Forall₂ (TT.Recount x x') (ts.map (TT.setSpan sp)) (ts'.map (TT.setSpan sp)) := by
  induction h with
  | nil => exact .nil
  | cons h1 _ ih =>
    refine .cons ?_ ih
    cases h1 with
    | same => exact .same _
    | count sp' => exact .count sp
    | info m sp' hm => exact .info m sp hm
    | group d ts ts' sp' h => exact .group d ts ts' sp h

theorem metaVarTokens_alike {r r' : RInfo} (h : r.ctx.Alike r'.ctx) (h1 : r.kind = r'.kind)
    (h3 : r.span = r'.span) {x x' : String} (hx : countText r.count r.kind = x)
    (hx' : countText r'.count r.kind = x') {sf sf' : Span → Except Err (List TT)}
    (hsf : ∀ sp, ExceptRel (List.Forall₂ (TT.Recount x x')) (sf sp) (sf' sp)) (name : String) (sp : Span) :
    ExceptRel (List.Forall₂ (TT.Recount x x')) (metaVarTokens r sf name sp) (metaVarTokens r' sf' name sp) := by
  have e1 := h.bindings.available
  have e2 := h.bindings.get name
  simp only [metaVarTokens, RInfo.fnName, RInfo.fnSig, ← h1, h3, h.fnVal, e1, e2]
  cases MetaVar.ofString name with
  | none =>
    simp only
    cases AMap.get? r'.ctx.bindings name with
    | none => exact rfl
    | some v => exact recount_refl _ _ _
  | some m =>
    cases m with
    | count =>
      simp only [hx, hx']
      exact .cons (.count _) .nil
    | hooqMeta =>
      simp only [hx, hx']
      refine .cons ?_ .nil
      exact TT.Recount.info ⟨_, _, _, _, x, _⟩ _ rfl
    | soFar => exact hsf sp
    | line | column | path | file | expr | source | fnName | fnSig | bindings =>
      exact recount_refl _ _ _

mutual
theorem expandTT_alike {r r' : RInfo} {x x' : String} {sf sf' : Span → Except Err (List TT)}
    (h : ∀ n sp, ExceptRel (List.Forall₂ (TT.Recount x x')) (metaVarTokens r sf n sp)
      (metaVarTokens r' sf' n sp)) :
    ∀ t : TT, ExceptRel (TT.Recount x x') (expandTT r sf t) (expandTT r' sf' t)
  | .group d ts _ => by
    have := expandList_alike h false ts
    simp only [expandTT, bind, Except.bind]
    cases h1 : expandList r sf false ts <;> cases h2 : expandList r' sf' false ts <;>
      simp only [h1, h2, ExceptRel] at this ⊢
    · exact this
    · exact .group d _ _ _ this
  | .ident _ _ | .punct _ _ | .lit _ _ | .exprHole _ | .sourceHole _ | .valueHole _ _
  | .bindingsHole _ _ | .metaHole _ _ => TT.Recount.same _
theorem expandList_alike {r r' : RInfo} {x x' : String} {sf sf' : Span → Except Err (List TT)}
    (h : ∀ n sp, ExceptRel (List.Forall₂ (TT.Recount x x')) (metaVarTokens r sf n sp)
      (metaVarTokens r' sf' n sp))
    (fl : Bool) : ∀ ts : List TT,
    ExceptRel (List.Forall₂ (TT.Recount x x')) (expandList r sf fl ts) (expandList r' sf' fl ts)
  | [] => by simp only [expandList]; exact .nil
  | t :: ts => by
    have h1 := expandTT_alike h t
    have h2 := fun fl => expandList_alike h fl ts
    simp only [expandList]
    split
    · cases t with
      | ident n sp =>
        have h3 := h n sp
        have h4 := h2 false
        simp only [bind, Except.bind]
        cases e1 : metaVarTokens r sf n sp <;> cases e2 : metaVarTokens r' sf' n sp <;>
          simp only [e1, e2, ExceptRel] at h3 ⊢
        · exact h3
        · cases e3 : expandList r sf false ts <;> cases e4 : expandList r' sf' false ts <;>
            simp only [e3, e4, ExceptRel] at h4 ⊢
          · exact h4
          · exact recount_append h3 h4
      | _ => exact rfl
    · split
      · exact h2 true
      · have h4 := h2 false
        simp only [bind, Except.bind]
        cases e1 : expandTT r sf t <;> cases e2 : expandTT r' sf' t <;>
          simp only [e1, e2, ExceptRel] at h1 ⊢
        · exact h1
        · cases e3 : expandList r sf false ts <;> cases e4 : expandList r' sf' false ts <;>
            simp only [e3, e4, ExceptRel] at h4 ⊢
          · exact h4
          · exact .cons h1 h4
end

theorem soFarOf_alike {r r' : RInfo} (h : r.ctx.Alike r'.ctx) (h1 : r.kind = r'.kind)
    (h3 : r.span = r'.span) {x x' : String} (hx : countText r.count r.kind = x)
    (hx' : countText r'.count r.kind = x') (ms : List Method) (sp : Span) :
    ExceptRel (List.Forall₂ (TT.Recount x x')) (soFarOf r ms sp) (soFarOf r' ms sp) := by
  induction ms generalizing sp with
  | nil => exact rfl
  | cons m ms ih =>
    simp only [soFarOf]
    exact expandList_alike (fun n sp => metaVarTokens_alike h h1 h3 hx hx' ih n sp) _ _

theorem render_alike {env : Env} (hE : env.CountBlind) {r r' : RInfo} (h : r.ctx.Alike r'.ctx)
    (h1 : r.kind = r'.kind) (h3 : r.span = r'.span) (h4 : r.rear = r'.rear) {b b' : Counter}
    (hc : ∃ j, r.count = b.get r.kind + j ∧ r'.count = b'.get r.kind + j) :
    ExceptRel (HookData.Recount b b') (render env r) (render env r') := by
  have he : ExceptRel (List.Forall₂ (TT.Recount (countSpec r.count r.kind) (countSpec r'.count r.kind)))
      (expandMethod r) (expandMethod r') := by
    simp only [expandMethod, h.method]
    exact expandList_alike (fun n sp => metaVarTokens_alike h h1 h3 (countText_spec _ _)
      (countText_spec _ _) (soFarOf_alike h h1 h3 (countText_spec _ _) (countText_spec _ _) _) n sp) _ _
  simp only [render, bind, Except.bind, h.method]
  cases e1 : expandMethod r <;> cases e2 : expandMethod r' <;> simp only [e1, e2, ExceptRel] at he ⊢
  · exact he
  · have hs := recount_setSpan he r'.span
    rw [h3, h4]
    cases r'.ctx.method.val with
    | insert dot ts exc =>
      simp only
      have hs' : List.Forall₂ (TT.Recount (countSpec r.count r.kind) (countSpec r'.count r.kind))
        (.punct '.' dot :: _) (.punct '.' dot :: _) := .cons (.same _) hs
      have hi := hE.insert _ _ _ _ hs'
      rw [hi]
      cases r'.rear <;> cases env.insertRear _ <;> simp only
      all_goals exact ⟨h1, rfl, rfl, rfl, rfl, hc, hs'⟩
    | replace ts exc =>
      simp only
      have hi := hE.replace r'.rear _ _ _ _ hs
      rw [hi]
      cases env.replaceShape r'.rear _ <;> simp only
      all_goals exact ⟨h1, rfl, rfl, rfl, rfl, hc, hs⟩

/-! ## Walks -/

/-- The same outcome of two walks from related counters. -/
def WSim {α : Type} (b b' : Counter) (R : α → α → Prop) (w w' : W α) : Prop :=
  ∀ c c', Counter.Moved b b' c c' →
    ExceptRel (fun r r' => R r.1 r'.1 ∧ Counter.Moved b b' r.2 r'.2) (w c) (w' c')

theorem WSim.bind {α β : Type} {b b' : Counter} {R : α → α → Prop} {S : β → β → Prop} {w w' : W α}
    {f f' : α → W β} (h : WSim b b' R w w') (hf : ∀ a a', R a a' → WSim b b' S (f a) (f' a')) :
    WSim b b' S (w >>= f) (w' >>= f') := by
  intro c c' hc
  have := h c c' hc
  show ExceptRel _ (w c >>= fun r => f r.1 r.2) (w' c' >>= fun r => f' r.1 r.2)
  simp only [Bind.bind, Except.bind]
  cases e1 : w c <;> cases e2 : w' c' <;> simp only [e1, e2, ExceptRel] at this ⊢
  · exact this
  · exact hf _ _ this.1 _ _ this.2

theorem WSim.pure {α : Type} {b b' : Counter} {R : α → α → Prop} {a a' : α} (h : R a a') :
    WSim b b' R (Pure.pure a) (Pure.pure a') := fun _ _ hc => ⟨h, hc⟩

theorem WSim.lift {α : Type} {b b' : Counter} {R : α → α → Prop} {x x' : Except Err α}
    (h : ExceptRel R x x') : WSim b b' R (W.lift x) (W.lift x') := by
  intro c c' hc
  cases x <;> cases x' <;> simp only [ExceptRel, W.lift, Except.map] at h ⊢
  · exact h
  · exact ⟨h, hc⟩

/-- Both or neither, related. -/
def OptRel {α : Type} (R : α → α → Prop) : Option α → Option α → Prop
  | some a, some a' => R a a'
  | none, none => True
  | _, _ => False

theorem moved_up {b b' c c' : Counter} (h : Counter.Moved b b' c c') (k : Kind) :
    Counter.Moved b b' (c.countUp k) (c'.countUp k) := by
  intro k2
  obtain ⟨j, h1, h2⟩ := h k2
  cases k <;> cases k2 <;> simp only [Counter.countUp, Counter.get] at h1 h2 ⊢ <;>
    first
    | exact ⟨j, h1, h2⟩
    | exact ⟨j + 1, by omega, by omega⟩

theorem hookExpr_alike {env : Env} (hE : env.CountBlind) {ctx ctx' : Ctx} (h : ctx.Alike ctx')
    (b b' : Counter) (a : Bool) (k : Kind) (sp : Span) (re : Rear) :
    WSim b b' (OptRel (HookData.Recount b b')) (hookExpr env a k sp re ctx) (hookExpr env a k sp re ctx') := by
  intro c c' hc
  have hc' := moved_up hc k
  simp only [hookExpr, h.targets]
  split
  · split
    · have := render_alike hE (r := ⟨ctx, k, (c.countUp k).get k, sp, re⟩)
        (r' := ⟨ctx', k, (c'.countUp k).get k, sp, re⟩) h rfl rfl rfl (hc' k)
      revert this
      cases render env ⟨ctx, k, (c.countUp k).get k, sp, re⟩ <;>
        cases render env ⟨ctx', k, (c'.countUp k).get k, sp, re⟩ <;>
        simp only [ExceptRel, Except.map] <;> intro this
      · exact this
      · exact this
      · exact this
      · exact ⟨this, hc'⟩
    · exact ⟨trivial, hc'⟩
  · exact ⟨trivial, hc⟩

theorem alike_update {c c' : Ctx} (h : c.Alike c') {i : Inert} (hn : (AMap.keys i.bindings).Nodup) :
    (c.update i).Alike (c'.update i) := by
  have hb : AMap.Same i.bindings i.bindings := ⟨fun _ => rfl, hn, hn⟩
  constructor
  · simp [Ctx.update, h.method]
  · simp [Ctx.update, h.targets]
  · simp [Ctx.update, h.tailIdents]
  · simp [Ctx.update, h.ignoreIdents]
  · simp [Ctx.update, h.resultTypes]
  · simp [Ctx.update, h.hookInMacros]
  · simp only [Ctx.update]
    split
    · exact h.bindings
    · exact h.bindings.extend hb
  · simp [Ctx.update, h.skip]
  · exact h.fnVal
  · exact h.fnNear

theorem alike_enter {c c' : Ctx} (h : c.Alike c') (ed : Edge) : (ed.enter c).Alike (ed.enter c') := by
  have hf : ∀ f : FnInfo, nearestFn (some f :: c.fnInfo.val :: c.fnInfo.anc)
      = nearestFn (some f :: c'.fnInfo.val :: c'.fnInfo.anc) := by
    intro f
    cases f with
    | function s => simp [nearestFn]
    | closure s n =>
      have := h.fnNear
      simp only [nearestFn]
      exact this
  have key : ∀ f : FnInfo, (c.updateFn f).Alike (c'.updateFn f) := fun f =>
    ⟨h.method, h.targets, h.tailIdents, h.ignoreIdents, h.resultTypes, h.hookInMacros, h.bindings, h.skip,
      rfl, hf f⟩
  have sub : ∀ {c c' : Ctx}, c.Alike c' → c.subScope.Alike c'.subScope := fun h =>
    ⟨h.method, h.targets, h.tailIdents, h.ignoreIdents, h.resultTypes, h.hookInMacros, h.bindings,
      by simp [Ctx.subScope, h.skip], h.fnVal, h.fnNear⟩
  simp only [Edge.enter]
  cases ed.fn with
  | none => simp only; split; exacts [sub h, h]
  | some f =>
    cases f with
    | fn sig => simp only; split; exacts [sub (key _), key _]
    | closure sig =>
      have e : closureInfo sig c.fnInfo = closureInfo sig c'.fnInfo := by
        simp only [closureInfo, h.fnNear]
      simp only [e]; split; exacts [sub (key _), key _]

/-- Handled nodes that are alike. -/
structure Handled.Alike (h h' : Handled) : Prop where
  ctx : h.ctx.Alike h'.ctx
  attrs : h.attrs = h'.attrs
  isSkipped : h.isSkipped = h'.isSkipped

theorem handle_alike {c c' : Ctx} (h : c.Alike c') (env : Env) (d : Data) :
    ExceptRel Handled.Alike (d.handle env c) (d.handle env c') := by
  simp only [Data.handle]
  split
  · simp only [handleAttrs]
    cases he : extract env d.attrs with
    | error e => simp [bind, Except.bind, ExceptRel]
    | ok r =>
      obtain ⟨i, kept⟩ := r
      have hn := extractFrom_nodup he (by simp [AMap.keys])
      simp only [bind, Except.bind, ExceptRel]
      exact ⟨alike_update h hn, rfl, by simp [Ctx.isSkipped, h.skip]⟩
  · exact ⟨h, rfl, by simp [Ctx.isSkipped, h.skip]⟩

mutual
/-- The same tree, except for the running numbers in the hooks. -/
def RTree.Like (b b' : Counter) : RTree → RTree → Prop
  | .mk d ms ks, .mk d' ms' ks' =>
    d = d' ∧ List.Forall₂ (MarkRecount b b') ms ms' ∧ RTree.Likes b b' ks ks'
/-- The same on lists. -/
def RTree.Likes (b b' : Counter) : List RTree → List RTree → Prop
  | [], [] => True
  | k :: ks, k' :: ks' => RTree.Like b b' k k' ∧ RTree.Likes b b' ks ks'
  | _, _ => False
end

theorem likes_get {b b' : Counter} {ks ks' : List RTree} (h : RTree.Likes b b' ks ks') (i : Nat) :
    OptRel (RTree.Like b b') ks[i]? ks'[i]? := by
  induction ks generalizing ks' i with
  | nil => cases ks' with
    | nil => simp [OptRel]
    | cons k' ks' => simp [RTree.Likes] at h
  | cons k ks ih => cases ks' with
    | nil => simp [RTree.Likes] at h
    | cons k' ks' =>
      simp only [RTree.Likes] at h
      cases i with
      | zero => simp [OptRel, h.1]
      | succ i => simpa using ih h.2 i

theorem like_recount {b b' : Counter} {t t' : RTree} (h : RTree.Like b b' t t') :
    RTree.Recount b b' t t' := by
  intro q
  induction q generalizing t t' with
  | nil =>
    obtain ⟨d, ms, ks⟩ := t
    obtain ⟨d', ms', ks'⟩ := t'
    simp only [RTree.Like] at h
    simp only [RTree.sub, RTree.data, RTree.marks]
    exact ⟨h.1, h.2.1⟩
  | cons i q ih =>
    obtain ⟨d, ms, ks⟩ := t
    obtain ⟨d', ms', ks'⟩ := t'
    simp only [RTree.Like] at h
    have hg := likes_get h.2.2 i
    simp only [RTree.sub]
    cases h1 : ks[i]? <;> cases h2 : ks'[i]? <;> simp only [h1, h2, OptRel] at hg ⊢
    simpa [h1, h2] using ih hg

theorem foldl_alike {β : Type} {b b' : Counter} {f : β → HookData → β}
    (hf : ∀ x hk hk', HookData.Recount b b' hk hk' → f x hk = f x hk') {ms ms' : List (HookData × RTree)}
    (h : List.Forall₂ (MarkRecount b b') ms ms') (x : β) :
    (ms.map Prod.fst).foldl f x = (ms'.map Prod.fst).foldl f x := by
  induction h generalizing x with
  | nil => rfl
  | cons h1 _ ih => simp only [List.map_cons, List.foldl_cons, hf x _ _ h1.1, ih]

mutual
theorem like_asPath {b b' : Counter} : ∀ {t t' : RTree}, RTree.Like b b' t t' → t.asPath = t'.asPath
  | .mk d ms ks, .mk d' ms' ks', h => by
    simp only [RTree.Like] at h
    obtain ⟨rfl, h1, h2⟩ := h
    simp only [RTree.asPath, likes_asPathHead h2]
    exact foldl_alike (fun x hk hk' hh => by simp only [hookPath, hh.mode, hh.shape]) h1 _
theorem likes_asPathHead {b b' : Counter} : ∀ {ks ks' : List RTree}, RTree.Likes b b' ks ks' →
    RTree.asPathHead ks = RTree.asPathHead ks'
  | [], [], _ => rfl
  | [], _ :: _, h => by simp [RTree.Likes] at h
  | _ :: _, [], h => by simp [RTree.Likes] at h
  | k :: ks, k' :: ks', h => by
    simp only [RTree.Likes] at h
    simp only [RTree.asPathHead, like_asPath h.1]
end

mutual
theorem like_callee {b b' : Counter} : ∀ {t t' : RTree}, RTree.Like b b' t t' → t.callee = t'.callee
  | .mk d ms ks, .mk d' ms' ks', h => by
    simp only [RTree.Like] at h
    obtain ⟨rfl, h1, h2⟩ := h
    simp only [RTree.callee, likes_asPathHead h2, likes_calleeHead h2]
    exact foldl_alike (fun x hk hk' hh => by simp only [hookCallee, hh.mode, hh.shape]) h1 _
theorem likes_calleeHead {b b' : Counter} : ∀ {ks ks' : List RTree}, RTree.Likes b b' ks ks' →
    RTree.calleeHead ks = RTree.calleeHead ks'
  | [], [], _ => rfl
  | [], _ :: _, h => by simp [RTree.Likes] at h
  | _ :: _, [], h => by simp [RTree.Likes] at h
  | k :: ks, k' :: ks', h => by
    simp only [RTree.Likes] at h
    simp only [RTree.calleeHead, like_callee h.1]
end

mutual
theorem like_start {b b' : Counter} : ∀ {t t' : RTree}, RTree.Like b b' t t' → t.start = t'.start
  | .mk d ms ks, .mk d' ms' ks', h => by
    simp only [RTree.Like] at h
    obtain ⟨rfl, h1, h2⟩ := h
    simp only [RTree.start, likes_startHead h2]
    exact foldl_alike (fun x hk hk' hh => by simp only [hookStart, hh.mode, hh.span]) h1 _
theorem likes_startHead {b b' : Counter} {sp : Span} : ∀ {ks ks' : List RTree}, RTree.Likes b b' ks ks' →
    RTree.startHead sp ks = RTree.startHead sp ks'
  | [], [], _ => rfl
  | [], _ :: _, h => by simp [RTree.Likes] at h
  | _ :: _, [], h => by simp [RTree.Likes] at h
  | k :: ks, k' :: ks', h => by
    simp only [RTree.Likes] at h
    simp only [RTree.startHead, like_start h.1]
end

mutual
theorem like_rear {b b' : Counter} : ∀ {t t' : RTree}, RTree.Like b b' t t' → t.rear = t'.rear
  | .mk d ms ks, .mk d' ms' ks', h => by
    simp only [RTree.Like] at h
    obtain ⟨rfl, h1, h2⟩ := h
    simp only [RTree.rear, likes_rearLast h2]
    exact foldl_alike (fun x hk hk' hh => by simp only [hookRear, hh.shape]) h1 _
theorem likes_rearLast {b b' : Counter} : ∀ {ks ks' : List RTree}, RTree.Likes b b' ks ks' →
    RTree.rearLast ks = RTree.rearLast ks'
  | [], [], _ => rfl
  | [], _ :: _, h => by simp [RTree.Likes] at h
  | _ :: _, [], h => by simp [RTree.Likes] at h
  | [k], [k'], h => by
    simp only [RTree.Likes] at h
    simp only [RTree.rearLast, like_rear h.1]
  | [_], _ :: _ :: _, h => by simp [RTree.Likes] at h
  | _ :: _ :: _, [_], h => by simp [RTree.Likes] at h
  | _ :: k :: ks, _ :: k' :: ks', h => by
    simp only [RTree.rearLast]
    exact likes_rearLast (by simp only [RTree.Likes] at h ⊢; exact h.2)
end

theorem likes_rearHead {b b' : Counter} {ks ks' : List RTree} (h : RTree.Likes b b' ks ks') :
    RTree.rearHead ks = RTree.rearHead ks' := by
  cases ks <;> cases ks' <;> simp only [RTree.Likes] at h
  · rfl
  · exact like_rear h.1

theorem like_addMark {b b' : Counter} {t t' : RTree} (h : RTree.Like b b' t t') {m m' : HookData × RTree}
    (hm : MarkRecount b b' m m') : RTree.Like b b' (t.addMark m) (t'.addMark m') := by
  obtain ⟨d, ms, ks⟩ := t
  obtain ⟨d', ms', ks'⟩ := t'
  simp only [RTree.Like] at h
  simp only [RTree.addMark, RTree.Like]
  exact ⟨h.1, List.rel_append h.2.1 (.cons hm .nil), h.2.2⟩

theorem likes_markHead {b b' : Counter} {ks ks' : List RTree} (h : RTree.Likes b b' ks ks')
    {m m' : HookData × RTree} (hm : MarkRecount b b' m m') :
    RTree.Likes b b' (markHead m ks) (markHead m' ks') := by
  cases ks <;> cases ks' <;> simp only [RTree.Likes] at h
  · trivial
  · exact ⟨like_addMark h.1 hm, h.2⟩

theorem like_mk {b b' : Counter} (d : Data) {ks ks' : List RTree} (h : RTree.Likes b b' ks ks') :
    RTree.Like b b' (.mk d [] ks) (.mk d [] ks') := by
  simp only [RTree.Like]
  exact ⟨trivial, .nil, h⟩

theorem retRule_alike {c c' : Ctx} (h : c.Alike c') (p : Option Path) : retRule c p = retRule c' p := by
  simp only [retRule, Ctx.isErrLike, Ctx.isOkLike, Ctx.returnsResult, h.tailIdents, h.ignoreIdents, h.fnVal,
    h.resultTypes]

theorem tailRule_alike {c c' : Ctx} (h : c.Alike c') (tk : TailKind) (p : Option Path) :
    tailRule c tk p = tailRule c' tk p := by
  simp only [tailRule, Ctx.isErrLike, Ctx.isOkLike, Ctx.returnsResult, h.tailIdents, h.ignoreIdents, h.fnVal,
    h.resultTypes]

theorem gtarget_alike {env : Env} (hE : env.CountBlind) {h h' : Handled} (hh : h.Alike h')
    {b b' : Counter} (d : Data) (kids : List RTree) {ks ks' : List RTree} (hk : RTree.Likes b b' ks ks') :
    WSim b b' (RTree.Like b b') (gtarget env h d kids ks) (gtarget env h' d kids ks') := by
  simp only [gtarget, hh.attrs, hh.isSkipped]
  split
  · rw [likes_rearHead hk]
    refine (hookExpr_alike hE hh.ctx b b' _ _ _ _).bind fun o o' ho => ?_
    cases o <;> cases o' <;> simp only [OptRel] at ho ⊢
    · exact .pure (like_mk _ hk)
    · rename_i x y
      simp only [ho.exc]
      split
      · exact .pure (like_mk _ (likes_markHead hk ⟨ho, rfl⟩))
      · exact .pure (like_mk _ (likes_markHead hk ⟨ho, rfl⟩))
  · cases ks <;> cases ks' <;> simp only [RTree.Likes] at hk
    · exact .pure (like_mk _ trivial)
    · rename_i k ks k' ks'
      have hks : RTree.Likes b b' (k :: ks) (k' :: ks') := hk
      simp only [like_callee hk.1, like_rear hk.1, retRule_alike hh.ctx]
      split
      · refine (hookExpr_alike hE hh.ctx b b' _ _ _ _).bind fun o o' ho => ?_
        cases o <;> cases o' <;> simp only [OptRel] at ho ⊢
        · exact .pure (like_mk _ hks)
        · exact .pure (like_mk _ (likes_markHead hks ⟨ho, rfl⟩))
      · exact .pure (like_mk _ hks)
  · exact .pure (like_mk _ hk)

theorem gtail_alike {env : Env} (hE : env.CountBlind) {h h' : Handled} (hh : h.Alike h')
    {b b' : Counter} (d : Data) (kids : List RTree) {t t' : RTree} (ht : RTree.Like b b' t t') :
    WSim b b' (RTree.Like b b') (gtail env h d kids t) (gtail env h' d kids t') := by
  simp only [gtail, hh.attrs, hh.isSkipped, like_callee ht, like_start ht, like_rear ht,
    tailRule_alike hh.ctx]
  split
  · exact .pure ht
  · split
    · exact .pure ht
    · split
      · refine (hookExpr_alike hE hh.ctx b b' _ _ _ _).bind fun o o' ho => ?_
        cases o <;> cases o' <;> simp only [OptRel] at ho ⊢
        · exact .pure ht
        · exact .pure (like_addMark ht ⟨ho, rfl⟩)
      · exact .pure ht

mutual
/-- No hook is anywhere in the tree. -/
def RTree.plain : RTree → Prop
  | .mk _ ms ks => ms = [] ∧ RTree.plains ks
/-- The same on lists. -/
def RTree.plains : List RTree → Prop
  | [] => True
  | k :: ks => k.plain ∧ RTree.plains ks
end

mutual
theorem like_refl {b b' : Counter} : ∀ {t : RTree}, t.plain → RTree.Like b b' t t
  | .mk d ms ks, h => by
    simp only [RTree.plain] at h
    obtain ⟨rfl, h⟩ := h
    exact like_mk d (likes_refl h)
theorem likes_refl {b b' : Counter} : ∀ {ts : List RTree}, RTree.plains ts → RTree.Likes b b' ts ts
  | [], _ => trivial
  | k :: ks, h => by
    simp only [RTree.plains] at h
    exact ⟨like_refl h.1, likes_refl h.2⟩
end

mutual
theorem gwalk_alike {env : Env} (hE : env.CountBlind) (b b' : Counter) {c c' : Ctx} (h : c.Alike c') :
    ∀ t : RTree, t.plain → WSim b b' (RTree.Like b b') (gwalk env c t) (gwalk env c' t)
  | .mk d ms kids, hp => by
    have hp' := hp
    simp only [RTree.plain] at hp
    have hk := fun {c c' : Ctx} (h : c.Alike c') => gwalkList_alike hE b b' h kids hp.2
    simp only [gwalk]
    split
    · split
      · exact .lift rfl
      · refine (WSim.lift (handle_alike (alike_enter h d.edge) env d)).bind fun a a' ha => ?_
        have ho : d.opens a.ctx = d.opens a'.ctx := by
          simp only [Data.opens, ha.ctx.hookInMacros]
        rw [ho]
        refine WSim.bind (R := RTree.Likes b b') ?_ fun ks ks' hks => ?_
        · simp only [gopen]
          split
          · exact hk ha.ctx
          · exact .pure (likes_refl hp.2)
        · exact (gtarget_alike hE ha d kids hks).bind fun t t' ht => gtail_alike hE ha d kids ht
    · exact .pure (like_refl hp')
theorem gwalkList_alike {env : Env} (hE : env.CountBlind) (b b' : Counter) {c c' : Ctx} (h : c.Alike c') :
    ∀ ts : List RTree, RTree.plains ts →
      WSim b b' (RTree.Likes b b') (gwalkList env c ts) (gwalkList env c' ts)
  | [], _ => by simp only [gwalkList]; exact .pure trivial
  | t :: ts, hp => by
    simp only [RTree.plains] at hp
    simp only [gwalkList]
    refine (gwalk_alike hE b b' h t hp.1).bind fun t1 t2 ht => ?_
    refine (gwalkList_alike hE b b' h ts hp.2).bind fun t3 t4 ht' => ?_
    exact .pure ⟨ht, ht'⟩
end

end Hooq
