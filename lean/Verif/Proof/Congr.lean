import Verif.Proof.Expand
import Verif.Proof.AttrForm

/-!
# The order of bindings does not influence the walk
-/

namespace Hooq

/-- The same bindings, possibly in a different order. -/
structure AMap.Same {α : Type} (m m' : AMap α) : Prop where
  get : ∀ k, AMap.get? m k = AMap.get? m' k
  nodup : (AMap.keys m).Nodup
  nodup' : (AMap.keys m').Nodup

/-- Contexts that differ only in the order of the bindings. -/
structure Ctx.Same (c c' : Ctx) : Prop where
  method : c.method = c'.method
  targets : c.targets = c'.targets
  tailIdents : c.tailIdents = c'.tailIdents
  ignoreIdents : c.ignoreIdents = c'.ignoreIdents
  resultTypes : c.resultTypes = c'.resultTypes
  hookInMacros : c.hookInMacros = c'.hookInMacros
  bindings : AMap.Same c.bindings c'.bindings
  skip : c.skip = c'.skip
  fnInfo : c.fnInfo = c'.fnInfo

theorem AMap.Same.available {m m' : AMap Value} (h : AMap.Same m m') :
    availableBindings m = availableBindings m' := by
  have h1 := availableBindings_listing m h.nodup
  have h2 := availableBindings_listing m' h.nodup'
  have : (fun k => AMap.get? m k) = (fun k => AMap.get? m' k) := funext h.get
  rw [this] at h1
  exact listing_unique h1 h2

theorem metaVarTokens_same {r r' : RInfo} (h : r.ctx.Same r'.ctx) (h1 : r.kind = r'.kind)
    (h2 : r.count = r'.count) (h3 : r.span = r'.span) (sf : Span → Except Err (List TT)) (x : String) :
    metaVarTokens r sf x = metaVarTokens r' sf x := by
  have e1 := h.bindings.available
  have e2 := h.bindings.get x
  funext sp
  simp only [metaVarTokens, RInfo.fnName, RInfo.fnSig, h1, h2, h3, h.fnInfo, e1, e2]

mutual
theorem expandTT_congr {r r' : RInfo} {sf sf' : Span → Except Err (List TT)}
    (h : ∀ x, metaVarTokens r sf x = metaVarTokens r' sf' x) : ∀ t : TT,
    expandTT r sf t = expandTT r' sf' t
  | .group d ts _ => by
    have := expandList_congr h false ts
    simp only [expandTT, this]
  | .ident _ _ | .punct _ _ | .lit _ _ | .exprHole _ | .sourceHole _ | .valueHole _ _
  | .bindingsHole _ _ | .metaHole _ _ => rfl
theorem expandList_congr {r r' : RInfo} {sf sf' : Span → Except Err (List TT)}
    (h : ∀ x, metaVarTokens r sf x = metaVarTokens r' sf' x) (fl : Bool) : ∀ ts : List TT,
    expandList r sf fl ts = expandList r' sf' fl ts
  | [] => by simp [expandList]
  | t :: ts => by
    have h1 := expandTT_congr h t
    have h2 := fun fl => expandList_congr h fl ts
    simp only [expandList, h1, h2]
    cases t <;> simp [h]
end

theorem soFarOf_same {r r' : RInfo} (h : r.ctx.Same r'.ctx) (h1 : r.kind = r'.kind)
    (h2 : r.count = r'.count) (h3 : r.span = r'.span) (ms : List Method) :
    soFarOf r ms = soFarOf r' ms := by
  induction ms with
  | nil => rfl
  | cons m ms ih =>
    funext sp
    simp only [soFarOf, ih]
    exact expandList_congr (fun x => metaVarTokens_same h h1 h2 h3 _ x) _ _

theorem render_same {env : Env} {r r' : RInfo} (h : r.ctx.Same r'.ctx) (h1 : r.kind = r'.kind)
    (h2 : r.count = r'.count) (h3 : r.span = r'.span) (h4 : r.rear = r'.rear) :
    render env r = render env r' := by
  have : expandMethod r = expandMethod r' := by
    simp only [expandMethod, h.method, soFarOf_same h h1 h2 h3]
    exact expandList_congr (fun x => metaVarTokens_same h h1 h2 h3 _ x) _ _
  simp only [render, this, h.method, h1, h2, h3, h4]

theorem hookExpr_same {c c' : Ctx} (h : c.Same c') (env : Env) (b : Bool) (k : Kind) (sp : Span)
    (re : Rear) : hookExpr env b k sp re c = hookExpr env b k sp re c' := by
  funext n
  simp only [hookExpr, h.targets]
  rw [render_same (r := { ctx := c, kind := k, count := (n.countUp k).get k, span := sp, rear := re })
    (r' := { ctx := c', kind := k, count := (n.countUp k).get k, span := sp, rear := re }) h rfl rfl
    rfl rfl]

theorem AMap.Same.extend {m m' : AMap Value} (h : AMap.Same m m') {l l' : AMap Value}
    (hl : AMap.Same l l') : AMap.Same (m.extend l) (m'.extend l') := by
  refine ⟨fun k => ?_, AMap.extend_nodup _ _ h.nodup, AMap.extend_nodup _ _ h.nodup'⟩
  rw [AMap.get?_extend, AMap.get?_extend, AMap.lastVal_nodup l hl.nodup, AMap.lastVal_nodup l' hl.nodup',
    hl.get, h.get]

theorem AMap.Same.isEmpty {α : Type} {m m' : AMap α} (h : AMap.Same m m') : m.isEmpty = m'.isEmpty := by
  cases m with
  | nil =>
    cases m' with
    | nil => rfl
    | cons x l => obtain ⟨k, v⟩ := x; have := h.get k; simp [AMap.get?] at this
  | cons x l =>
    cases m' with
    | nil => obtain ⟨k, v⟩ := x; have := h.get k; simp [AMap.get?] at this
    | cons y l' => rfl

/-- Node summaries that differ only in the order of the bindings. -/
theorem update_same {c c' : Ctx} (h : c.Same c') {i j : Inert} (hi : SameInert i j)
    (n1 : (AMap.keys i.bindings).Nodup) (n2 : (AMap.keys j.bindings).Nodup) :
    (c.update i).Same (c'.update j) := by
  have hb : AMap.Same i.bindings j.bindings := ⟨hi.bindings, n1, n2⟩
  constructor
  · simp [Ctx.update, hi.method, h.method]
  · simp [Ctx.update, hi.targets, h.targets]
  · simp [Ctx.update, hi.tailIdents, h.tailIdents]
  · simp [Ctx.update, hi.ignoreIdents, h.ignoreIdents]
  · simp [Ctx.update, hi.resultTypes, h.resultTypes]
  · simp [Ctx.update, hi.hookInMacros, h.hookInMacros]
  · have e1 : (c.update i).bindings
        = if i.bindings.isEmpty then c.bindings else c.bindings.extend i.bindings := rfl
    have e2 : (c'.update j).bindings
        = if j.bindings.isEmpty then c'.bindings else c'.bindings.extend j.bindings := rfl
    rw [e1, e2, ← hb.isEmpty]
    split
    · exact h.bindings
    · exact h.bindings.extend hb
  · simp [Ctx.update, Inert.skipStatus, hi.skip, hi.skipAll, h.skip]
  · simp [Ctx.update, h.fnInfo]

theorem SameInert.refl (i : Inert) : SameInert i i := by constructor <;> simp

theorem enter_same {c c' : Ctx} (h : c.Same c') (ed : Edge) : (ed.enter c).Same (ed.enter c') := by
  have key : ∀ f : FnInfo, (c.updateFn f).Same (c'.updateFn f) := fun f =>
    ⟨h.method, h.targets, h.tailIdents, h.ignoreIdents, h.resultTypes, h.hookInMacros, h.bindings, h.skip,
      by simp [Ctx.updateFn, h.fnInfo]⟩
  have sub : ∀ {c c' : Ctx}, c.Same c' → c.subScope.Same c'.subScope := fun h =>
    ⟨h.method, h.targets, h.tailIdents, h.ignoreIdents, h.resultTypes, h.hookInMacros, h.bindings,
      by simp [Ctx.subScope, h.skip], h.fnInfo⟩
  simp only [Edge.enter]
  cases ed.fn with
  | none => simp only; split; exacts [sub h, h]
  | some f =>
    cases f with
    | fn sig => simp only; split; exacts [sub (key _), key _]
    | closure sig => simp only [h.fnInfo]; split; exacts [sub (key _), key _]

/-- Handled nodes that differ only in the order of the bindings. -/
structure Handled.Same (h h' : Handled) : Prop where
  ctx : h.ctx.Same h'.ctx
  attrs : h.attrs = h'.attrs
  isSkipped : h.isSkipped = h'.isSkipped

/-- Both fail with the same error, or both succeed with related results. -/
def ExceptRel {ε α : Type} (R : α → α → Prop) : Except ε α → Except ε α → Prop
  | .ok a, .ok b => R a b
  | .error e, .error e' => e = e'
  | _, _ => False

theorem handleAttrs_same {c c' : Ctx} (h : c.Same c') (env : Env) (attrs : List Attr) :
    ExceptRel Handled.Same (handleAttrs env attrs c) (handleAttrs env attrs c') := by
  simp only [handleAttrs]
  cases he : extract env attrs with
  | error e => simp [bind, Except.bind, ExceptRel]
  | ok r =>
    obtain ⟨i, kept⟩ := r
    have hn := extractFrom_nodup he (by simp [AMap.keys])
    simp only [bind, Except.bind, ExceptRel]
    exact ⟨update_same h (SameInert.refl i) hn hn, rfl, by simp [Ctx.isSkipped, h.skip]⟩

theorem handle_same {c c' : Ctx} (h : c.Same c') (env : Env) (d : Data) :
    ExceptRel Handled.Same (d.handle env c) (d.handle env c') := by
  simp only [Data.handle]
  split
  · exact handleAttrs_same h env d.attrs
  · exact ⟨h, rfl, by simp [Ctx.isSkipped, h.skip]⟩

theorem retRule_same {c c' : Ctx} (h : c.Same c') (p : Option Path) : retRule c p = retRule c' p := by
  simp only [retRule, Ctx.isErrLike, Ctx.isOkLike, Ctx.returnsResult, h.tailIdents, h.ignoreIdents, h.fnInfo,
    h.resultTypes]

theorem tailRule_same {c c' : Ctx} (h : c.Same c') (tk : TailKind) (p : Option Path) :
    tailRule c tk p = tailRule c' tk p := by
  simp only [tailRule, Ctx.isErrLike, Ctx.isOkLike, Ctx.returnsResult, h.tailIdents, h.ignoreIdents, h.fnInfo,
    h.resultTypes]

theorem gtarget_same {h h' : Handled} (hh : h.Same h') (env : Env) (d : Data) (kids kids' : List RTree) :
    gtarget env h d kids kids' = gtarget env h' d kids kids' := by
  simp only [gtarget, hh.attrs, hh.isSkipped, hookExpr_same hh.ctx, retRule_same hh.ctx]

theorem gtail_same {h h' : Handled} (hh : h.Same h') (env : Env) (d : Data) (kids : List RTree) (t : RTree) :
    gtail env h d kids t = gtail env h' d kids t := by
  simp only [gtail, hh.attrs, hh.isSkipped, hookExpr_same hh.ctx, tailRule_same hh.ctx]

theorem opens_same {c c' : Ctx} (h : c.Same c') (d : Data) : d.opens c = d.opens c' := by
  simp only [Data.opens, h.hookInMacros]

mutual
theorem gwalk_same (env : Env) {c c' : Ctx} (h : c.Same c') : ∀ t : RTree,
    gwalk env c t = gwalk env c' t
  | .mk d ms kids => by
    have hk := fun {c c' : Ctx} (h : c.Same c') => gwalkList_same env h kids
    simp only [gwalk]
    split
    · split
      · rfl
      · have hh := handle_same (enter_same h d.edge) env d
        cases h1 : d.handle env (d.edge.enter c) with
        | error e =>
          cases h2 : d.handle env (d.edge.enter c') with
          | error e' => rw [h1, h2] at hh; rw [show e = e' from hh]
          | ok b => rw [h1, h2] at hh; exact hh.elim
        | ok a =>
          cases h2 : d.handle env (d.edge.enter c') with
          | error e' => rw [h1, h2] at hh; exact hh.elim
          | ok b =>
            rw [h1, h2] at hh
            have hh : a.Same b := hh
            simp only [W.lift_ok, pure_bind, hk hh.ctx, opens_same hh.ctx, gtarget_same hh, gtail_same hh]
    · rfl
theorem gwalkList_same (env : Env) {c c' : Ctx} (h : c.Same c') : ∀ ts : List RTree,
    gwalkList env c ts = gwalkList env c' ts
  | [] => rfl
  | t :: ts => by
    have h1 := gwalk_same env h t
    have h2 := gwalkList_same env h ts
    simp only [gwalkList, h1, h2]
end

/-! ## Swapping attributes -/

theorem SetsApart.comm {env : Env} {a b : Attr} (h : SetsApart env a b) (acc : Inert)
    {i j i' j' : Inert} {k1 k2 k3 k4 : Bool}
    (h1 : inertStep env acc a = .ok (i, k1)) (h2 : inertStep env i b = .ok (j, k2))
    (h3 : inertStep env acc b = .ok (i', k3)) (h4 : inertStep env i' a = .ok (j', k4)) :
    SameInert j j' := by
  have s1 := inertStep_spec h1
  have s2 := inertStep_spec h2
  have s3 := inertStep_spec h3
  have s4 := inertStep_spec h4
  have or_comm : ∀ {α : Type} (x y z : Option α), x = none ∨ y = none → x.or (y.or z) = y.or (x.or z) := by
    intro α x y z hxy
    rcases hxy with rfl | rfl <;> simp
  constructor
  · rw [s2.method, s1.method, s4.method, s3.method]; exact or_comm _ _ _ h.method.symm
  · rw [s2.targets, s1.targets, s4.targets, s3.targets]; exact or_comm _ _ _ h.targets.symm
  · rw [s2.tailIdents, s1.tailIdents, s4.tailIdents, s3.tailIdents]; exact or_comm _ _ _ h.tailIdents.symm
  · rw [s2.ignoreIdents, s1.ignoreIdents, s4.ignoreIdents, s3.ignoreIdents]
    rcases h.ignoreIdents with e | e <;> simp [e, IgnoreEffect.apply]
  · rw [s2.resultTypes, s1.resultTypes, s4.resultTypes, s3.resultTypes]
    exact or_comm _ _ _ h.resultTypes.symm
  · rw [s2.hookInMacros, s1.hookInMacros, s4.hookInMacros, s3.hookInMacros]
    exact or_comm _ _ _ h.hookInMacros.symm
  · intro k
    rw [s2.bindings, s1.bindings, s4.bindings, s3.bindings]; exact or_comm _ _ _ (h.bindings k).symm
  · rw [s2.skip, s1.skip, s4.skip, s3.skip, Bool.or_left_comm]
  · rw [s2.skipAll, s1.skipAll, s4.skipAll, s3.skipAll, Bool.or_left_comm]

theorem except_error_of_not_ok {ε α : Type} {x : Except ε α} (h : ¬ ∃ a, x = .ok a) : ∃ e, x = .error e := by
  cases x with
  | error e => exact ⟨e, rfl⟩
  | ok a => exact absurd ⟨a, rfl⟩ h

theorem extractFrom_append (env : Env) (acc : Inert) (l l' : List Attr) :
    extractFrom env acc (l ++ l') = (do
      let r ← extractFrom env acc l
      let r' ← extractFrom env r.1 l'
      .ok (r'.1, r.2 ++ r'.2)) := by
  induction l generalizing acc with
  | nil =>
    simp only [List.nil_append, extractFrom, bind, Except.bind]
    cases extractFrom env acc l' <;> simp
  | cons a l ih =>
    simp only [List.cons_append, extractFrom, ih, bind, Except.bind]
    cases inertStep env acc a with
    | error e => rfl
    | ok r =>
      obtain ⟨acc1, keep⟩ := r
      simp only
      cases extractFrom env acc1 l with
      | error e => rfl
      | ok r1 =>
        simp only
        cases extractFrom env r1.1 l' with
        | error e => rfl
        | ok r2 => cases keep <;> simp

/-- The error of one attribute does not depend on what was collected before. -/
theorem inertStep_error (env : Env) (acc acc' : Inert) (a : Attr) {e : Err}
    (h : inertStep env acc a = .error e) : inertStep env acc' a = .error e := by
  cases a with
  | path p =>
    simp only [inertStep] at h ⊢
    split at h
    · simp at h
    · rename_i n1
      split at h
      · simp at h
      · rename_i n2
        rw [if_neg n1, if_neg n2]
        cases hb : getBindingName p with
        | error e' => simpa [hb, bind, Except.bind] using h
        | ok o => cases o <;> simp_all [bind, Except.bind]
  | list p ts =>
    simp only [inertStep] at h ⊢
    split at h
    · simp at h
    rename_i n1; rw [if_neg n1]
    split at h
    · rename_i hp; rw [if_pos hp]
      cases hl : parseStrings ts with
      | none => simpa [hl] using h
      | some l => simp only [hl] at h ⊢; cases hp : Targets.parse l <;> simp_all
    rename_i n2; rw [if_neg n2]
    split at h
    · rename_i hp; rw [if_pos hp]
      cases hl : parseStrings ts <;> simp_all
    rename_i n3; rw [if_neg n3]
    split at h
    · rename_i hp; rw [if_pos hp]
      cases hl : parseStrings ts <;> simp_all
    rename_i n4; rw [if_neg n4]
    split at h
    · rename_i hp; rw [if_pos hp]
      cases hl : parseStrings ts <;> simp_all
    rename_i n5; rw [if_neg n5]
    split at h
    · rename_i hp; rw [if_pos hp]
      cases hl : parseBool ts <;> simp_all
    rename_i n6; rw [if_neg n6]
    split at h
    · rename_i hp; rw [if_pos hp]
      cases hn : env.parseNameValue ts with
      | none => simpa [hn] using h
      | some r =>
        obtain ⟨q, v⟩ := r
        simp only [hn] at h ⊢
        split at h
        · simp at h
        · exact h
    rename_i n7; rw [if_neg n7]
    cases hb : getBindingName p with
    | error e' => simpa [hb, bind, Except.bind] using h
    | ok o => cases o <;> simp_all [bind, Except.bind]
  | nv p v =>
    have key : ∀ {s : String} {f g : Settings → Inert × Bool},
        (flavorOfValue env v s >>= fun x => Except.ok (f x)) = .error e →
        (flavorOfValue env v s >>= fun x => Except.ok (g x)) = .error e := by
      intro s f g h
      cases hf : flavorOfValue env v s with
      | error e' => rw [hf] at h; simpa [bind, Except.bind] using h
      | ok x => rw [hf] at h; simp [bind, Except.bind] at h
    simp only [inertStep] at h ⊢
    split at h
    · rename_i hp; rw [if_pos hp]; exact key h
    rename_i n1; rw [if_neg n1]
    split at h
    · rename_i hp; rw [if_pos hp]; exact key h
    rename_i n2; rw [if_neg n2]
    split at h
    · rename_i hp; rw [if_pos hp]; exact key h
    rename_i n3; rw [if_neg n3]
    split at h
    · rename_i hp; rw [if_pos hp]; exact key h
    rename_i n4; rw [if_neg n4]
    split at h
    · rename_i hp; rw [if_pos hp]; exact h
    rename_i n5; rw [if_neg n5]
    split at h
    · rename_i hp; rw [if_pos hp]; exact key h
    rename_i n6; rw [if_neg n6]
    split at h
    · rename_i hp; rw [if_pos hp]; exact key h
    rename_i n7; rw [if_neg n7]
    split at h
    · rename_i hp; rw [if_pos hp]; exact key h
    rename_i n8; rw [if_neg n8]
    cases hb : getBindingName p with
    | error e' => simpa [hb, bind, Except.bind] using h
    | ok o => cases o <;> simp_all [bind, Except.bind]

theorem SameInert.step {env : Env} {i j i' j' : Inert} {a : Attr} {k k' : Bool} (h : SameInert i j)
    (h1 : inertStep env i a = .ok (i', k)) (h2 : inertStep env j a = .ok (j', k')) :
    SameInert i' j' ∧ k = k' := by
  have s := inertStep_spec h1
  have t := inertStep_spec h2
  refine ⟨?_, by rw [s.keep, t.keep]⟩
  constructor
  · rw [s.method, t.method, h.method]
  · rw [s.targets, t.targets, h.targets]
  · rw [s.tailIdents, t.tailIdents, h.tailIdents]
  · rw [s.ignoreIdents, t.ignoreIdents, h.ignoreIdents]
  · rw [s.resultTypes, t.resultTypes, h.resultTypes]
  · rw [s.hookInMacros, t.hookInMacros, h.hookInMacros]
  · intro k; rw [s.bindings, t.bindings, h.bindings]
  · rw [s.skip, t.skip, h.skip]
  · rw [s.skipAll, t.skipAll, h.skipAll]

/-- Same outcome of attribute processing, up to the order of the bindings. -/
theorem extractFrom_same {env : Env} {i j : Inert} (h : SameInert i j) (attrs : List Attr) :
    ExceptRel (fun r r' => SameInert r.1 r'.1 ∧ r.2 = r'.2) (extractFrom env i attrs)
      (extractFrom env j attrs) := by
  induction attrs generalizing i j with
  | nil => exact ⟨h, rfl⟩
  | cons a rest ih =>
    simp only [extractFrom]
    cases h1 : inertStep env i a with
    | error e => rw [inertStep_error env i j a h1]; exact rfl
    | ok r =>
      obtain ⟨i1, k⟩ := r
      cases h2 : inertStep env j a with
      | error e => rw [inertStep_error env j i a h2] at h1; cases h1
      | ok r' =>
        obtain ⟨j1, k'⟩ := r'
        obtain ⟨hs, rfl⟩ := h.step h1 h2
        have := ih hs
        simp only [bind, Except.bind]
        cases h3 : extractFrom env i1 rest with
        | error e =>
          cases h4 : extractFrom env j1 rest with
          | error e' => rw [h3, h4] at this; exact this
          | ok x => rw [h3, h4] at this; exact this.elim
        | ok x =>
          cases h4 : extractFrom env j1 rest with
          | error e' => rw [h3, h4] at this; exact this.elim
          | ok y =>
            rw [h3, h4] at this
            exact ⟨this.1, by rw [this.2]⟩

/-- Swapping two well-formed neighbours that set different things, not both foreign. -/
theorem extract_swap {env : Env} {a b : Attr} (ha : AttrOk env a) (hb : AttrOk env b)
    (hab : SetsApart env a b) (hi : a.isInert = true ∨ b.isInert = true) (pre post : List Attr) :
    ExceptRel (fun r r' => SameInert r.1 r'.1 ∧ r.2 = r'.2) (extract env (pre ++ a :: b :: post))
      (extract env (pre ++ b :: a :: post)) := by
  simp only [extract, extractFrom_append]
  cases extractFrom env {} pre with
  | error e => exact rfl
  | ok r0 =>
    obtain ⟨acc, kept⟩ := r0
    obtain ⟨⟨i1, k1⟩, h1⟩ := (inertStep_ok_iff env acc a).2 ha
    obtain ⟨⟨i2, k2⟩, h2⟩ := (inertStep_ok_iff env i1 b).2 hb
    obtain ⟨⟨i3, k3⟩, h3⟩ := (inertStep_ok_iff env acc b).2 hb
    obtain ⟨⟨i4, k4⟩, h4⟩ := (inertStep_ok_iff env i3 a).2 ha
    have hs := hab.comm acc h1 h2 h3 h4
    have e1 := (inertStep_spec h1).keep
    have e2 := (inertStep_spec h2).keep
    have e3 := (inertStep_spec h3).keep
    have e4 := (inertStep_spec h4).keep
    have := extractFrom_same (env := env) hs post
    simp only [bind, Except.bind, extractFrom, h1, h2, h3, h4]
    cases h5 : extractFrom env i2 post with
    | error e =>
      cases h6 : extractFrom env i4 post with
      | error e' => rw [h5, h6] at this; exact this
      | ok x => rw [h5, h6] at this; exact this.elim
    | ok x =>
      cases h6 : extractFrom env i4 post with
      | error e' => rw [h5, h6] at this; exact this.elim
      | ok y =>
        rw [h5, h6] at this
        refine ⟨this.1, ?_⟩
        simp only [e1, e2, e3, e4, this.2]
        rcases hi with hi | hi <;> simp [hi]

end Hooq
