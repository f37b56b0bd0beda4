import Verif.Proof.Errors

/-!
# Items that always expand
-/

namespace Hooq

theorem rear_addMark_hook (t : RTree) (m : HookData × RTree) :
    (t.addMark m).rear = hookRear t.rear m.1 := by
  obtain ⟨d, ms, ks⟩ := t
  simp [RTree.addMark, RTree.rear, List.foldl_append]

/-- Ends are kept usable. -/
def KeepsRear (k k' : RTree) : Prop := k.rear ≠ .stuck → k'.rear ≠ .stuck

theorem rearLast_keeps {ks ks' : List RTree} (h : List.Forall₂ KeepsRear ks ks')
    (hs : RTree.rearLast ks ≠ .stuck) : RTree.rearLast ks' ≠ .stuck := by
  induction h with
  | nil => exact hs
  | cons h1 h2 ih =>
    cases h2 with
    | nil => simp only [RTree.rearLast] at hs ⊢; exact h1 hs
    | cons h3 h4 => simp only [RTree.rearLast] at hs ih ⊢; exact ih hs

theorem inner_stuck (r : Rear) : r.inner ≠ .stuck ↔ r ≠ .stuck := by
  cases r <;> simp [Rear.inner]

theorem rear_keeps {d d' : Data} {ms : List (HookData × RTree)} {ks ks' : List RTree}
    (hb : (RTree.mk d ms ks).built = false) (ht : d'.tag = d.tag) (hr : d'.rear = d.rear)
    (h : List.Forall₂ KeepsRear ks ks') : KeepsRear (.mk d ms ks) (.mk d' [] ks') := by
  intro hs
  have hms : ms = [] := by
    simp only [RTree.built, Bool.or_eq_false_iff] at hb
    simpa using hb.1
  subst hms
  simp only [RTree.rear, List.map_nil, List.foldl_nil, ht, hr] at hs ⊢
  split at hs
  · exact rearLast_keeps h hs
  · simp
  · rw [inner_stuck] at hs ⊢; exact rearLast_keeps h hs
  · exact absurd rfl hs

theorem render_fine {env : Env} {s : Settings} {up : List Data} {r : RInfo}
    (ha : Agrees env s up r.ctx) (hn : s.bindings.keys.Nodup)
    (hm : MethodWorks env s.method fun k => s.bindings.get? k)
    (hstack : methodStack env s up = [s.method]) (hbind : ∀ k, bindingAt env s k up = s.bindings.get? k)
    (hr : r.rear ≠ .stuck) : ∃ hk, render env r = .ok hk ∧ hookRear r.rear hk ≠ .stuck := by
  obtain ⟨out, h1, h2⟩ := hm (siteAt env s up r.kind r.span r.count) (funext hbind)
  have hmv : r.ctx.method.val = s.method := by
    have := ha.method
    rw [hstack] at this
    exact (List.cons.inj this).1
  rw [← hstack, ← expandMethod_iff ha hn] at h1
  simp only [render, h1, hmv, bind, Except.bind]
  cases hmm : s.method with
  | insert dot l exc =>
    simp only [hmm] at h2
    obtain ⟨re, h3, h4⟩ := h2
    simp only [siteAt] at h3
    simp only [h3]
    cases hre : r.rear with
    | stuck => exact absurd hre hr
    | whole => exact ⟨_, rfl, by cases re <;> simp_all [hookRear]⟩
    | part => exact ⟨_, rfl, by cases re <;> simp_all [hookRear]⟩
  | replace l exc =>
    simp only [hmm] at h2
    obtain ⟨sh, h3, h4⟩ := h2 r.rear hr
    simp only [siteAt] at h3
    simp only [h3]
    refine ⟨_, rfl, ?_⟩
    cases sh <;> simp_all [hookRear]

theorem hookExpr_fine {env : Env} {ctx : Ctx} {ap : Bool} {k : Kind} {sp : Span} {rear : Rear}
    (hf : ∀ n, ∃ hk, render env { ctx := ctx, kind := k, count := n, span := sp, rear := rear } = .ok hk ∧
      hookRear rear hk ≠ .stuck) (c : Counter) :
    ∃ o c', hookExpr env ap k sp rear ctx c = .ok (o, c') ∧
      ∀ hk, o = some hk → hookRear rear hk ≠ .stuck := by
  simp only [hookExpr]
  split
  · split
    · obtain ⟨hk, h1, h2⟩ := hf ((c.countUp k).get k)
      refine ⟨some hk, c.countUp k, by simp [h1, Except.map], ?_⟩
      rintro _ ⟨⟩; exact h2
    · exact ⟨_, _, rfl, by simp⟩
  · exact ⟨_, _, rfl, by simp⟩

theorem W.bind_of_ok {α β : Type} {x : W α} {f : α → W β} {c c1 : Counter} {a : α}
    (h : x c = .ok (a, c1)) : (x >>= f) c = f a c1 := by
  simp [Bind.bind, StateT.bind, h, Except.bind]

/-- Nothing in the tree can make the walk fail under a method that works. -/
def Harmless (t : RTree) : Prop :=
  ∀ p n, t.sub p = some n → n.built = false ∧ (∀ a ∈ n.data.attrs, a.isInert = false) ∧ Attachable n

theorem Harmless.kid {d : Data} {ms : List (HookData × RTree)} {ks : List RTree}
    (h : Harmless (.mk d ms ks)) {i : Nat} {k : RTree} (hk : ks[i]? = some k) : Harmless k :=
  fun p n hp => h (i :: p) n (by simp [RTree.sub, hk, hp])

/-- No node on the way carries an inert attribute. -/
def Bare (up : List Data) : Prop := ∀ d ∈ up, ∀ a ∈ d.attrs, a.isInert = false

theorem inert_none {env : Env} {a : Attr} (h : a.isInert = false) :
    methodOf env a = none ∧ targetsOf env a = none ∧ ∀ k, bindingOf env k a = none := by
  have hne := not_inert_ne h
  cases a with
  | path p => exact ⟨rfl, rfl, fun _ => rfl⟩
  | list p ts =>
    simp only [Meta.getPath] at hne
    simp [methodOf, targetsOf, bindingOf, whenNamed, hne]
  | nv p v =>
    simp only [Meta.getPath] at hne
    refine ⟨by simp [methodOf, whenNamed, hne], by simp [targetsOf, whenNamed, hne], fun k => ?_⟩
    simp only [bindingOf, List.map_cons, List.map_nil, List.mem_cons, hne, settingNames,
      List.not_mem_nil, or_self, if_false]
    split
    · rename_i s b hs
      simp only [Meta.isInert, Meta.getPath, hs] at h
      rw [if_neg]
      rintro ⟨h1, -⟩
      simp [h1] at h
    · rfl

theorem seen_sub {d : Data} {a : Attr} (h : a ∈ d.seen) : a ∈ d.attrs := by
  simp only [Data.seen] at h
  split at h
  · exact h
  · split at h
    · simp at h
    · exact h
  · simp at h
  · simp at h

theorem lastSet_eq_none {α β : Type} {f : α → Option β} {l : List α} (h : ∀ a ∈ l, f a = none) :
    lastSet f l = none := by
  simp only [lastSet, List.getLast?_eq_none_iff, List.filterMap_eq_nil_iff]
  exact h

theorem Bare.stack {env : Env} {s : Settings} {up : List Data} (h : Bare up) :
    methodStack env s up = [s.method] := by
  induction up with
  | nil => rfl
  | cons d up ih =>
    simp only [methodStack]
    rw [lastSet_eq_none fun a ha => (inert_none (h d (by simp) a (seen_sub ha))).1,
      ih fun d' hd => h d' (by simp [hd])]
    rfl

theorem Bare.over {up : List Data} (h : Bare up) : ∀ a ∈ attrsOver up, a.isInert = false := by
  intro a ha
  simp only [attrsOver, List.mem_flatMap, List.mem_reverse] at ha
  obtain ⟨d, h1, h2⟩ := ha
  exact h d h1 a (seen_sub h2)

theorem Bare.binding {env : Env} {s : Settings} {up : List Data} (h : Bare up) (k : String) :
    bindingAt env s k up = s.bindings.get? k := by
  rw [bindingAt, lastSet_eq_none fun a ha => (inert_none (h.over a ha)).2.2 k]
  rfl

theorem forall₂_refl (ks : List RTree) : List.Forall₂ KeepsRear ks ks := by
  induction ks with
  | nil => exact .nil
  | cons k ks ih => exact .cons id ih

mutual

theorem gwalk_fine {env : Env} {s : Settings} (hn : s.bindings.keys.Nodup)
    (hm : MethodWorks env s.method fun k => s.bindings.get? k) :
    ∀ (t : RTree) ⦃ctx : Ctx⦄ ⦃up0 : List Data⦄ (c : Counter),
    Harmless t → t.WF → Agrees env s up0 ctx → Bare up0 →
    ∃ t' c', gwalk env ctx t c = .ok (t', c') ∧ KeepsRear t t'
  | .mk d ms kids, ctx, up0, c, hh, hwf, ha, hbare => by
    have ih := gwalkList_fine hn hm kids
    cases hv : d.edge.visit with
    | false => exact ⟨_, c, by simp only [gwalk, hv]; rfl, id⟩
    | true =>
    obtain ⟨hb, hattrs, hatt⟩ := hh [] _ rfl
    rw [RTree.data_mk] at hattrs
    have hbare' : Bare (d :: up0) := by
      intro d' hd'
      rcases List.mem_cons.1 hd' with rfl | h
      · exact hattrs
      · exact hbare d' h
    simp only [gwalk, hv, if_true, hb, Bool.false_eq_true, if_false]
    obtain ⟨hd, h1⟩ : ∃ hd, d.handle env (d.edge.enter ctx) = .ok hd := by
      cases h : d.handle env (d.edge.enter ctx) with
      | ok hd => exact ⟨hd, rfl⟩
      | error e =>
        obtain ⟨a, h1, h2⟩ := handle_err h
        exact absurd (.inl (hattrs a (seen_sub h1))) h2
    have ha' := agrees_step ha h1
    have hren : ∀ k n sp rear, rear ≠ .stuck →
        ∃ hk, render env { ctx := hd.ctx, kind := k, count := n, span := sp, rear := rear } = .ok hk ∧
          hookRear rear hk ≠ .stuck := fun k n sp rear hr =>
      render_fine (r := ⟨hd.ctx, k, n, sp, rear⟩) ha' hn hm hbare'.stack hbare'.binding hr
    rw [W.bind_of_ok (show W.lift (d.handle env (d.edge.enter ctx)) c = .ok (hd, c) by rw [h1]; rfl)]
    obtain ⟨kids', c2, h2, hk2⟩ : ∃ kids' c2,
        gopen (d.opens hd.ctx) kids (gwalkList env hd.ctx kids) c = .ok (kids', c2) ∧
          List.Forall₂ KeepsRear kids kids' := by
      simp only [gopen]
      split
      · exact ih c (fun i k hk => hh.kid hk) hwf.2 ha' hbare'
      · exact ⟨kids, c, rfl, forall₂_refl kids⟩
    rw [W.bind_of_ok h2]
    obtain ⟨t1, c3, h3, hk3⟩ : ∃ t1 c3, gtarget env hd d kids kids' c2 = .ok (t1, c3) ∧
        KeepsRear (.mk d ms kids) t1 := by
      simp only [gtarget]
      cases htag : d.tag with
      | question q b =>
        have hnode := hwf.1
        simp only [nodeOk, htag] at hnode
        obtain ⟨⟨k, rfl, -⟩, -⟩ := hnode
        have hks := hatt.1 (.inl ⟨q, b, htag⟩) k (by simp)
        obtain ⟨k', ks', hkk, hnil, rfl⟩ := List.forall₂_cons_left_iff.1 hk2
        obtain rfl := List.forall₂_nil_left_iff.1 hnil
        obtain ⟨o, c4, h4, h5⟩ := hookExpr_fine (ap := !hd.isSkipped)
          (fun n => hren .question n q k'.rear (hkk hks)) c2
        have h4' : hookExpr env (!hd.isSkipped) .question q (RTree.rearHead [k']) hd.ctx c2 = .ok (o, c4) := h4
        simp only
        rw [W.bind_of_ok h4']
        cases o with
        | none => exact ⟨_, c4, rfl, rear_keeps hb (by simp [htag]) rfl hk2⟩
        | some hk =>
          have h6 := h5 hk rfl
          have hmk : ∀ x, KeepsRear k (k'.addMark (hk, x)) :=
            fun x _ => by rw [rear_addMark_hook]; exact h6
          cases hx : hk.exc with
          | false =>
            simp only [hx, Bool.false_eq_true, if_false]
            exact ⟨_, c4, rfl, rear_keeps hb (by simp [htag]) rfl (.cons (hmk _) .nil)⟩
          | true =>
            simp only [hx, if_true]
            refine ⟨_, c4, rfl, fun _ => ?_⟩
            simp only [RTree.rear, List.map_nil, List.foldl_nil, markHead, RTree.rearLast]
            exact hmk _ hks
      | ret =>
        cases kids' with
        | nil => exact ⟨_, c2, rfl, rear_keeps hb (by simp [htag]) rfl hk2⟩
        | cons k' ks' =>
          cases kids with
          | nil => cases hk2
          | cons k ks =>
          obtain ⟨hkk, hkks⟩ := List.forall₂_cons.1 hk2
          have hks := hatt.1 (.inr htag) k (by simp)
          cases hrule : retRule hd.ctx k'.callee with
          | false =>
            simp only [hrule, Bool.false_eq_true, if_false]
            exact ⟨_, c2, rfl, rear_keeps hb (by simp [htag]) rfl hk2⟩
          | true =>
            simp only [hrule, if_true]
            obtain ⟨o, c4, h4, h5⟩ := hookExpr_fine (ap := !hd.isSkipped)
              (fun n => hren .ret n d.span k'.rear (hkk hks)) c2
            rw [W.bind_of_ok h4]
            cases o with
            | none => exact ⟨_, c4, rfl, rear_keeps hb (by simp [htag]) rfl hk2⟩
            | some hk =>
              refine ⟨_, c4, rfl, rear_keeps hb (by simp [htag]) rfl (.cons (fun _ => ?_) hkks)⟩
              rw [rear_addMark_hook]; exact h5 hk rfl
      | _ => exact ⟨_, c2, rfl, rear_keeps hb (by simp [htag]) rfl hk2⟩
    rw [W.bind_of_ok h3]
    simp only [gtail]
    cases htl : d.edge.tail with
    | none => exact ⟨t1, c3, rfl, hk3⟩
    | some tk =>
      by_cases hmode : d.mode = .untouched
      · simp only [hmode, if_true]; exact ⟨t1, c3, rfl, hk3⟩
      simp only [hmode, if_false]
      cases hrule : tailRule hd.ctx tk t1.callee with
      | false => simp only [Bool.false_eq_true, if_false]; exact ⟨t1, c3, rfl, hk3⟩
      | true =>
        simp only [if_true]
        have hts := hk3 (hatt.2 (by rw [RTree.data_mk, htl]; simp))
        obtain ⟨o, c4, h4, h5⟩ := hookExpr_fine (ap := !hd.isSkipped)
          (fun n => hren .tail n t1.start t1.rear hts) c3
        rw [W.bind_of_ok h4]
        cases o with
        | none => exact ⟨t1, c4, rfl, hk3⟩
        | some hk =>
          refine ⟨_, c4, rfl, fun _ => ?_⟩
          rw [rear_addMark_hook]; exact h5 hk rfl

theorem gwalkList_fine {env : Env} {s : Settings} (hn : s.bindings.keys.Nodup)
    (hm : MethodWorks env s.method fun k => s.bindings.get? k) :
    ∀ (ts : List RTree) ⦃ctx : Ctx⦄ ⦃up0 : List Data⦄ (c : Counter),
    (∀ (i : Nat) (k : RTree), ts[i]? = some k → Harmless k) → WFList ts → Agrees env s up0 ctx → Bare up0 →
    ∃ ts' c', gwalkList env ctx ts c = .ok (ts', c') ∧ List.Forall₂ KeepsRear ts ts'
  | [], ctx, up0, c, hh, hwf, ha, hb => ⟨[], c, rfl, .nil⟩
  | t :: ts, ctx, up0, c, hh, hwf, ha, hb => by
    obtain ⟨t', c1, h1, h2⟩ := gwalk_fine hn hm t c (hh 0 t rfl) hwf.1 ha hb
    obtain ⟨ts', c2, h3, h4⟩ := gwalkList_fine hn hm ts c1
      (fun i k hk => hh (i + 1) k (by simpa using hk)) hwf.2 ha hb
    refine ⟨t' :: ts', c2, ?_, .cons h2 h4⟩
    simp only [gwalkList]
    rw [W.bind_of_ok h1, W.bind_of_ok h3]
    rfl

end

end Hooq
