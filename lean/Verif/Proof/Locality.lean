import Verif.Proof.Local

/-!
# The walk at a position
-/

namespace Hooq

theorem upFrom_suffix {t : RTree} {acc up : List Data} {p : List Nat}
    (h : t.upFrom acc p = some up) : ∃ l, up = l ++ t.data :: acc := by
  induction p generalizing t acc with
  | nil => cases t; simp [RTree.upFrom] at h; exact ⟨[], by simp [h.symm, RTree.data]⟩
  | cons i p ih =>
    obtain ⟨d, ms, ks⟩ := t
    simp only [RTree.upFrom] at h
    split at h
    · obtain ⟨l, hl⟩ := ih h
      exact ⟨l ++ [_], by rw [hl]; simp [RTree.data]; rfl⟩
    · simp at h

theorem upFrom_sub {t : RTree} {acc up : List Data} {p : List Nat}
    (h : t.upFrom acc p = some up) : ∃ n upn, t.sub p = some n ∧ up = n.data :: upn := by
  induction p generalizing t acc with
  | nil => cases t; simp [RTree.upFrom] at h; exact ⟨_, acc, rfl, by simp [h.symm, RTree.data]⟩
  | cons i p ih =>
    obtain ⟨d, ms, ks⟩ := t
    simp only [RTree.upFrom] at h
    simp only [RTree.sub]
    split at h
    · rename_i k hk
      obtain ⟨n, upn, h1, h2⟩ := ih h
      exact ⟨n, upn, by simp [hk, h1], h2⟩
    · simp at h

theorem reached_cons (env : Env) (s : Settings) (d : Data) (up : List Data) :
    reached env s (d :: up) = (d.edge.visit &&
    (match up with
      | m :: _ => m.tag != .mac || macrosAt env s up
      | [] => true) && reached env s up) := by
  cases up <;> simp [reached]

theorem reached_suffix {env : Env} {s : Settings} (l up : List Data)
    (h : reached env s (l ++ up) = true) : reached env s up = true := by
  induction l with
  | nil => exact h
  | cons d l ih =>
    apply ih
    rw [List.cons_append, reached_cons] at h
    simp only [Bool.and_eq_true] at h
    exact h.2

/-- No mark is put on a walked child except by a `?` or `return` above it. -/
theorem target_kids {env : Env} {h : Handled} {d : Data} {kids kids' : List RTree} {t : RTree}
    {c c' : Counter} (ho : TargetOut env h d kids kids' t c c') :
    t.kids = kids' ∨ ∃ hk src, t.kids = markHead (hk, src) kids' ∧ hk.kind ≠ .tail := by
  cases htag : d.tag with
  | question q b =>
    have := ho.question q b htag
    split at this
    · obtain ⟨hk, _, hr, hkids, _⟩ := this
      exact .inr ⟨hk, _, hkids, by rw [(render_kind hr).1]; simp⟩
    · exact .inl this.2.1
  | ret =>
    have := (ho.ret htag).2.2
    cases kids' with
    | nil => exact .inl this.1
    | cons k ks =>
      simp only at this
      split at this
      · split at this
        · obtain ⟨hk, _, hr, hkids⟩ := this
          exact .inr ⟨hk, _, hkids, by rw [(render_kind hr).1]; simp⟩
        · exact .inl this.2
      · exact .inl this.1
  | call | path _ | mac | other _ =>
    have := ho.other (by simp [htag]) (by simp [htag])
    exact .inl this.2.2.1

theorem gtail_kids {env : Env} {h : Handled} {d : Data} {kids : List RTree} {t t' : RTree}
    {c c' : Counter} (hg : gtail env h d kids t c = .ok (t', c')) : t'.kids = t.kids :=
  (gtail_inv hg).2.1

theorem markHead_get (m : HookData × RTree) (ks : List RTree) (i : Nat) :
    (markHead m ks)[i]? = if i = 0 then ks[i]?.map (RTree.addMark m) else ks[i]? := by
  cases ks with
  | nil => simp [markHead]
  | cons k ks => cases i <;> simp [markHead]

theorem gwalk_visit_false {env : Env} {ctx : Ctx} {t t' : RTree} {c c' : Counter}
    (hv : t.data.edge.visit = false) (h : gwalk env ctx t c = .ok (t', c')) : t' = t ∧ c' = c := by
  obtain ⟨d, ms, kids⟩ := t
  simp only [RTree.data] at hv
  simp only [gwalk, hv, Bool.false_eq_true, if_false] at h
  exact ⟨(W.pure_ok h).1.symm, (W.pure_ok h).2.symm⟩

/-- What the walk does at a reached position: it visits the node there in a context
that holds the settings in force, and afterwards at most a hook of an enclosing `?`
or `return` is added on top. -/
theorem gwalk_local {env : Env} {s : Settings} {p : List Nat} {t t' : RTree} {ctx : Ctx}
    {up up' : List Data} {c c' : Counter} (ha : Agrees env s up ctx)
    (hw : gwalk env ctx t c = .ok (t', c')) (hu : t.upFrom up p = some up')
    (hr : reached env s up' = true) :
    ∃ n n0 n' upn ctx' c1 c2, t.sub p = some n ∧ t'.sub p = some n' ∧ up' = n.data :: upn ∧
      Agrees env s upn ctx' ∧ gwalk env ctx' n c1 = .ok (n0, c2) ∧ n'.data = n0.data ∧
      n'.kids = n0.kids ∧ n'.tailMarks = n0.tailMarks := by
  induction p generalizing t t' ctx up c c' with
  | nil =>
    obtain ⟨d, ms, ks⟩ := t
    simp [RTree.upFrom] at hu
    subst hu
    exact ⟨.mk d ms ks, t', t', up, ctx, c, c', rfl, by cases t'; rfl, rfl, ha, hw, rfl, rfl, rfl⟩
  | cons i p ih =>
    obtain ⟨d, ms, ks⟩ := t
    obtain ⟨l, hl⟩ := upFrom_suffix hu
    simp only [RTree.upFrom] at hu
    split at hu
    rotate_left
    · simp at hu
    rename_i k hk
    have hv : d.edge.visit = true := by
      have := reached_suffix l (d :: up) (by rw [hl] at hr; exact hr)
      rw [reached_cons] at this; simp only [Bool.and_eq_true] at this; exact this.1.1
    obtain ⟨_, hd, kids', ck, t1, ct, h1, h2, h3, h4⟩ := gwalk_inv hv hw
    have ha' := agrees_step ha h1
    obtain ⟨l2, hl2⟩ := upFrom_suffix hu
    have hopen : d.opens hd.ctx = true := by
      have := reached_suffix l2 (k.data :: d :: up) (by rw [hl2] at hr; exact hr)
      rw [reached_cons] at this; simp only [Bool.and_eq_true] at this
      have hm := this.1.2
      simp only [Data.opens]
      split
      · rename_i ht
        rw [ht] at hm
        rw [ha'.hookInMacros]
        simpa using hm
      · rfl
    rw [hopen] at h2
    simp only [gopen, if_true] at h2
    obtain ⟨hlen, hkids⟩ := gwalkList_inv h2
    obtain ⟨k', ci, ci', hk', hwk⟩ := hkids i k hk
    obtain ⟨n, n0, n', upn, ctx', c1, c2, g1, g2, g3, g4, g5, g6, g7, g8⟩ := ih ha' hwk hu
    have hkk := gtail_kids h4
    have hsub : (RTree.mk d ms ks).sub (i :: p) = some n := by simp [RTree.sub, hk, g1]
    rcases target_kids (gtarget_inv h3) with hkids1 | ⟨mk, src, hkids1, hne⟩
    · rw [hkids1] at hkk
      obtain ⟨d', ms', ks'⟩ := t'
      simp only [RTree.kids] at hkk; subst hkk
      exact ⟨n, n0, n', upn, ctx', c1, c2, hsub, by simp [RTree.sub, hk', g2], g3, g4, g5, g6, g7, g8⟩
    · rw [hkids1] at hkk
      obtain ⟨d', ms', ks'⟩ := t'
      simp only [RTree.kids] at hkk; subst hkk
      cases i with
      | succ i =>
        exact ⟨n, n0, n', upn, ctx', c1, c2, hsub,
          by simp [RTree.sub, markHead_get, hk', g2], g3, g4, g5, g6, g7, g8⟩
      | zero =>
        cases p with
        | cons j p =>
          exact ⟨n, n0, n', upn, ctx', c1, c2, hsub, by
            obtain ⟨dk, mk', kk⟩ := k'
            simp only [RTree.sub, markHead_get, hk', Option.map_some, RTree.addMark, if_true]
            simpa [RTree.sub] using g2, g3, g4, g5, g6, g7, g8⟩
        | nil =>
          simp [RTree.sub] at g2
          subst g2
          refine ⟨n, n0, k'.addMark (mk, src), upn, ctx', c1, c2, hsub,
            by simp [RTree.sub, markHead_get, hk'], g3, g4, g5, ?_, ?_, ?_⟩
          · cases k'; simpa [RTree.addMark, RTree.data] using g6
          · cases k'; simpa [RTree.addMark, RTree.kids] using g7
          · rw [← g8]
            cases k'
            simp [RTree.addMark, RTree.tailMarks, RTree.marks, List.filter_append, hne]

/-- A position that is not reached keeps its contents. -/
theorem gwalk_unreached {env : Env} {s : Settings} {p : List Nat} {t t' : RTree} {ctx : Ctx}
    {up up' : List Data} {c c' : Counter} (hwf : t.WF) (ha : Agrees env s up ctx)
    (hroot : t.data.edge.visit = true → reached env s (t.data :: up) = true)
    (hw : gwalk env ctx t c = .ok (t', c')) (hu : t.upFrom up p = some up')
    (hr : reached env s up' = false) : t'.sub p = t.sub p := by
  induction p generalizing t t' ctx up c c' with
  | nil =>
    obtain ⟨d, ms, ks⟩ := t
    simp [RTree.upFrom] at hu
    subst hu
    cases hv : d.edge.visit with
    | false => rw [(gwalk_visit_false (t := .mk d ms ks) hv hw).1]
    | true => have := hroot hv; simp [RTree.data] at this; rw [this] at hr; simp at hr
  | cons i p ih =>
    obtain ⟨d, ms, ks⟩ := t
    cases hv : d.edge.visit with
    | false => rw [(gwalk_visit_false (t := .mk d ms ks) hv hw).1]
    | true =>
    obtain ⟨l, hl⟩ := upFrom_suffix hu
    simp only [RTree.upFrom] at hu
    split at hu
    rotate_left
    · simp at hu
    rename_i k hk
    obtain ⟨_, hd, kids', ck, t1, ct, h1, h2, h3, h4⟩ := gwalk_inv hv hw
    have ha' := agrees_step ha h1
    have hkk := gtail_kids h4
    have ho := gtarget_inv h3
    have hrd := hroot hv
    simp only [RTree.data] at hrd
    cases hopen : d.opens hd.ctx with
    | false =>
      rw [hopen] at h2
      simp only [gopen] at h2
      obtain ⟨rfl, rfl⟩ := W.pure_ok h2
      have htag : d.tag = .mac := by
        simp only [Data.opens] at hopen; split at hopen <;> simp_all
      have := (ho.other (by simp [htag]) (by simp [htag])).2.2.1
      rw [this] at hkk
      obtain ⟨d', ms', ks'⟩ := t'
      simp only [RTree.kids] at hkk; subst hkk
      simp [RTree.sub]
    | true =>
      rw [hopen] at h2
      simp only [gopen, if_true] at h2
      obtain ⟨hlen, hkids⟩ := gwalkList_inv h2
      obtain ⟨k', ci, ci', hk', hwk⟩ := hkids i k hk
      have hkroot : k.data.edge.visit = true → reached env s (k.data :: d :: up) = true := by
        intro hkv
        rw [reached_cons]
        simp only [hkv, hrd, Bool.true_and, Bool.and_true]
        simp only [Data.opens] at hopen
        split at hopen
        · rw [ha'.hookInMacros] at hopen; simp [hopen]
        · rename_i hnm; simp; left; exact fun h => hnm h
      have g := ih (WFList_get hwf.2 hk) ha' hkroot hwk hu
      have hgoal : (RTree.mk d ms ks).sub (i :: p) = k.sub p := by simp [RTree.sub, hk]
      rw [hgoal]
      rcases target_kids ho with hkids1 | ⟨mk, src, hkids1, hne⟩
      · rw [hkids1] at hkk
        obtain ⟨d', ms', ks'⟩ := t'
        simp only [RTree.kids] at hkk; subst hkk
        simp [RTree.sub, hk', g]
      · rw [hkids1] at hkk
        obtain ⟨d', ms', ks'⟩ := t'
        simp only [RTree.kids] at hkk; subst hkk
        cases i with
        | succ i => simp [RTree.sub, markHead_get, hk', g]
        | zero =>
          cases p with
          | cons j p =>
            rw [← g]
            obtain ⟨dk, mk', kk⟩ := k'
            simp [RTree.sub, markHead_get, hk', Option.map_some, RTree.addMark]
          | nil =>
            exfalso
            have hkv : k.data.edge.visit = true := by
              have hn := hwf.1
              simp only [nodeOk] at hn
              cases htag : d.tag with
              | question q b =>
                simp only [htag] at hn
                obtain ⟨⟨k2, rfl, he⟩, -⟩ := hn
                simp at hk; subst hk; simp [he]
              | ret =>
                simp only [htag] at hn
                rcases hn with rfl | ⟨k2, rfl, he⟩
                · simp at hk
                · simp at hk; subst hk; simp [he]
              | call | path _ | mac | other _ =>
                have := (ho.other (by simp [htag]) (by simp [htag])).2.2.1
                rw [this] at hkids1
                have h5 := hk'
                rw [hkids1, markHead_get] at h5
                simp only [hk', if_true, Option.map_some, Option.some.injEq] at h5
                obtain ⟨dk, mk', kk⟩ := k'
                simp [RTree.addMark] at h5
            have h6 := hkroot hkv
            cases k; simp [RTree.upFrom] at hu; subst hu
            simp only [RTree.data] at h6
            rw [h6] at hr; simp at hr

end Hooq
