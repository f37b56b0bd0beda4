import Verif.Proof.Template

/-!
# The first token of a processed expression
-/

namespace Hooq

theorem foldl_hookStart (l : List HookData) (sp : Span) (h : ∀ m ∈ l, m.mode = .insert) :
    l.foldl hookStart sp = sp := by
  induction l generalizing sp with
  | nil => rfl
  | cons m l ih =>
    rw [List.foldl_cons, ih _ fun x hx => h x (List.mem_cons_of_mem _ hx)]
    simp [hookStart, h m (by simp)]

theorem start_eq (t : RTree) : t.start = t.hooks.foldl hookStart t.bare.start := by
  obtain ⟨d, ms, ks⟩ := t
  simp [RTree.start, RTree.bare, RTree.hooks, RTree.data, RTree.kids, RTree.marks]

theorem start_bare {t : RTree} (h : ∀ m ∈ t.marks, m.1.mode = .insert) : t.start = t.bare.start := by
  rw [start_eq]
  refine foldl_hookStart _ _ fun m hm => ?_
  simp only [RTree.hooks, List.mem_map] at hm
  obtain ⟨x, hx, rfl⟩ := hm
  exact h x hx

theorem headMarks_eq (d : Data) (ms : List (HookData × RTree)) (ks : List RTree) :
    (RTree.mk d ms ks).headMarks = if d.leftmost then RTree.headMarksOf ks else [] := by
  simp [RTree.headMarks]

theorem headMarks_addMark (m : HookData × RTree) (t : RTree) :
    (t.addMark m).headMarks = t.headMarks := by
  cases t; simp [RTree.addMark, RTree.headMarks]

theorem bare_addMark (m : HookData × RTree) (t : RTree) : (t.addMark m).bare = t.bare := by
  cases t; rfl

/-- The walk keeps the first token, unless a hook that replaces sits on it. -/
theorem gwalk_start {env : Env} : ∀ (n : RTree) {n0 : RTree} {ctx : Ctx} {c c' : Counter},
    gwalk env ctx n c = .ok (n0, c') → (∀ m ∈ n0.headMarks, m.1.mode = .insert) →
    n0.bare.start = n.bare.start
  | .mk d ms kids, n0, ctx, c, c', h, hi => by
    rcases Bool.eq_false_or_eq_true d.edge.visit with hv | hv
    swap
    · rw [(gwalk_visit_false (by simpa using hv) h).1]
    obtain ⟨_, hd, kids', ck, t1, ct, h1, h2, h3, h4⟩ := gwalk_inv hv h
    have ho := gtarget_inv h3
    have hg := gtail_inv h4
    have e1 : n0.data.leftmost = d.leftmost := by rw [hg.1]; exact ho.leftmost
    have e2 : n0.data.span = d.span := by rw [hg.1]; exact ho.span
    have e3 := target_kids ho
    rw [← hg.2.1] at e3
    obtain ⟨d0, ms0, ks0⟩ := n0
    simp only [RTree.data_mk, RTree.kids_mk] at e1 e2 e3
    rw [headMarks_eq, e1] at hi
    simp only [RTree.bare, RTree.data_mk, RTree.kids_mk, RTree.start, List.map_nil,
      List.foldl_nil, e1, e2]
    rcases Bool.eq_false_or_eq_true d.leftmost with hl | hl
    swap
    · simp [hl]
    simp only [hl, if_true] at hi ⊢
    match kids, h2 with
    | [], h2 =>
      have : kids' = [] := by
        simp only [gopen] at h2
        split at h2
        · simpa using (gwalkList_inv h2).1
        · exact (W.pure_ok h2).1.symm
      subst this
      have : ks0 = [] := by
        rcases e3 with e3 | ⟨hk, src, e3, _⟩
        · exact e3
        · simpa [markHead] using e3
      subst this
      rfl
    | k :: ks, h2 =>
      have hk : ∃ k' ks', kids' = k' :: ks' ∧
          ((k' = k) ∨ ∃ ci ci', k.data.edge.visit = true ∧ gwalk env hd.ctx k ci = .ok (k', ci')) := by
        simp only [gopen] at h2
        split at h2
        · obtain ⟨hlen, hget⟩ := gwalkList_inv h2
          obtain ⟨k', ci, ci', g1, g2⟩ := hget 0 k (by simp)
          cases kids' with
          | nil => simp at g1
          | cons x ks' =>
            simp only [List.getElem?_cons_zero, Option.some.injEq] at g1
            subst g1
            refine ⟨x, ks', rfl, ?_⟩
            rcases Bool.eq_false_or_eq_true k.data.edge.visit with hkv | hkv
            · exact .inr ⟨ci, ci', hkv, g2⟩
            · exact .inl (gwalk_visit_false hkv g2).1
        · exact ⟨k, ks, (W.pure_ok h2).1.symm, .inl rfl⟩
      obtain ⟨k', ks', rfl, hk⟩ := hk
      have hks : ∃ k0 ks1, ks0 = k0 :: ks1 ∧ (k0 = k' ∨ ∃ m, k0 = k'.addMark m) := by
        rcases e3 with e3 | ⟨hk, src, e3, _⟩
        · exact ⟨k', ks', e3, .inl rfl⟩
        · exact ⟨_, _, e3, .inr ⟨_, rfl⟩⟩
      obtain ⟨k0, ks1, rfl, hks⟩ := hks
      simp only [RTree.headMarksOf, List.mem_append] at hi
      simp only [RTree.startHead]
      rcases hk with rfl | ⟨ci, ci', hkv, hw⟩
      · rcases hks with rfl | ⟨m, rfl⟩
        · rfl
        · obtain ⟨dk, mk, kk⟩ := k'
          have hm := hi m (.inl (by simp [RTree.addMark, RTree.marks]))
          simp [RTree.addMark, RTree.start, List.foldl_append, hookStart, hm]
      · have hb0 : k0.bare = k'.bare ∧ k0.headMarks = k'.headMarks := by
          rcases hks with rfl | ⟨m, rfl⟩
          · exact ⟨rfl, rfl⟩
          · exact ⟨bare_addMark _ _, headMarks_addMark _ _⟩
        have ih := gwalk_start k hw fun m hm => hi m (.inr (by rw [hb0.2]; exact hm))
        rw [start_bare fun m hm => hi m (.inl hm), hb0.1, ih]
        obtain ⟨dk, mk, kk⟩ := k
        have hbt := (gwalk_inv (d := dk) (by simpa using hkv) hw).1
        simp only [RTree.built, Bool.or_eq_false_iff, Bool.not_eq_false', List.isEmpty_iff] at hbt
        rw [hbt.1]; rfl

end Hooq
