import Verif.Proof.Targets

/-!
# What the walk leaves of a node, and which hooks a node can carry
-/

namespace Hooq

theorem upFrom_snoc {t : RTree} {acc up : List Data} {p : List Nat} {i : Nat} {d : Data}
    (h : t.upFrom acc (p ++ [i]) = some (d :: up)) : t.upFrom acc p = some up := by
  induction p generalizing t acc with
  | nil =>
    obtain ⟨d0, ms, ks⟩ := t
    simp only [List.nil_append, RTree.upFrom] at h
    split at h
    · rename_i k hk
      obtain ⟨dk, mk, kk⟩ := k
      simp only [RTree.upFrom, Option.some.injEq, List.cons.injEq] at h
      simp [RTree.upFrom, h.2]
    · simp at h
  | cons j p ih =>
    obtain ⟨d0, ms, ks⟩ := t
    simp only [List.cons_append, RTree.upFrom] at h ⊢
    split at h
    · exact ih h
    · simp at h

/-- What stays of a reached node. -/
theorem node_at {env : Env} {s : Settings} {t t' : RTree} {ctx : Ctx} {up0 up : List Data}
    {c c' : Counter} {p : List Nat} {d : Data}
    (hn : s.bindings.keys.Nodup) (ha : Agrees env s up0 ctx)
    (hw : gwalk env ctx t c = .ok (t', c')) (hu : t.upFrom up0 p = some (d :: up))
    (hr : reached env s (d :: up) = true) :
    ∃ n n', t.sub p = some n ∧ t'.sub p = some n' ∧ n.data = d ∧
      n'.kids.length = n.kids.length ∧
      n'.data = (match d.tag with
        | .question q _ =>
          if hookedAt env s (d :: up) .question && (methodAt env s (d :: up)).exc then
            { d with tag := .question q true, attrs := [] }
          else { d with attrs := d.kept }
        | _ => { d with attrs := d.kept }) ∧
      (d.tag = .mac → macrosAt env s (d :: up) = false → n'.kids = n.kids) ∧
      ((∀ q b, d.tag ≠ .question q b) → d.tag ≠ .ret → ∀ (i : Nat) k', n'.kids[i]? = some k' →
        (∃ k, n.kids[i]? = some k ∧ k.data.edge.visit = true ∧
          (d.tag = .mac → macrosAt env s (d :: up) = true)) → k'.marks = k'.tailMarks) := by
  obtain ⟨n, n0, n', upn, ctx', c1, c2, g1, g2, g3, g4, g5, g6, g7, g8⟩ := gwalk_local ha hw hu hr
  obtain ⟨dn, ms, kids⟩ := n
  rw [RTree.data_mk] at g3
  obtain ⟨rfl, rfl⟩ := List.cons.inj g3
  rename Data => dn
  have hv : dn.edge.visit = true := by
    rw [reached_cons] at hr; simp only [Bool.and_eq_true] at hr; exact hr.1.1
  obtain ⟨hb, hd, kids', ck, t1, ct, h1, h2, h3, h4⟩ := gwalk_inv hv g5
  have ha' := agrees_step g4 h1
  obtain ⟨hkept, hskip⟩ := handle_kept h1
  obtain ⟨e1, e2, e3⟩ := gtail_inv h4
  have ht := gtarget_inv h3
  refine ⟨_, n', g1, g2, rfl, ?_, ?_, ?_, ?_⟩
  · have hl : kids'.length = kids.length := by
      simp only [gopen] at h2
      split at h2
      · exact (gwalkList_inv h2).1
      · rw [(W.pure_ok h2).1]
    rw [g7, e2, RTree.kids_mk]
    rcases target_kids ht with h | ⟨a, b, h, _⟩
    · rw [h, hl]
    · rw [h]; cases kids' <;> simpa [markHead] using hl
  · rw [g6, e1]
    have hdata : ∀ x : Data, x.edge = t1.data.edge → x.mode = t1.data.mode → x.span = t1.data.span →
        x.leftmost = t1.data.leftmost → x.rear = t1.data.rear → x.tag = t1.data.tag →
        x.attrs = t1.data.attrs → t1.data = x := by
      intro x; intros; cases hx : t1.data; cases x; simp_all
    cases htag : dn.tag with
    | question q b =>
      have htq := ht.question q b htag
      rw [has_eq ha' hskip] at htq
      simp only
      rcases Bool.eq_false_or_eq_true (hookedAt env s (dn :: up) .question) with hh | hh
      · simp only [hh, if_true] at htq
        obtain ⟨hk, hc, hrn, hkids, hx⟩ := htq
        have hish := render_isHook (r := ⟨hd.ctx, .question, ct.get .question, q, _⟩) ha' hn hrn
        rw [← hish.exc]
        cases hxe : hk.exc
        · simp only [hxe, Bool.false_eq_true, if_false] at hx
          simp only [hh, Bool.and_false, Bool.false_eq_true, if_false]
          apply hdata <;> simp [ht.edge, ht.mode, ht.span, ht.leftmost, ht.rear, hx, hkept, htag]
        · simp only [hxe, if_true] at hx
          simp only [hh, Bool.and_true, if_true]
          apply hdata <;> simp [ht.edge, ht.mode, ht.span, ht.leftmost, ht.rear, hx]
      · simp only [hh, Bool.false_eq_true, if_false] at htq
        simp only [hh, Bool.false_and, Bool.false_eq_true, if_false]
        apply hdata <;> simp [ht.edge, ht.mode, ht.span, ht.leftmost, ht.rear, htq, hkept, htag]
    | ret =>
      have hx := ht.ret htag
      apply hdata <;> simp [ht.edge, ht.mode, ht.span, ht.leftmost, ht.rear, hx, hkept]
    | call | path _ | mac | other _ =>
      have hx := ht.other (by simp [htag]) (by simp [htag])
      apply hdata <;> simp [ht.edge, ht.mode, ht.span, ht.leftmost, ht.rear, hx, hkept, htag]
  · intro htag hm
    have hx := ht.other (by simp [htag]) (by simp [htag])
    rw [g7, e2, hx.2.2.1]
    have : dn.opens hd.ctx = false := by simp [Data.opens, htag, ha'.hookInMacros, hm]
    rw [this] at h2
    simp only [gopen, Bool.false_eq_true, if_false] at h2
    exact (W.pure_ok h2).1.symm
  · intro hq hret i k' hk' hx
    obtain ⟨k, hk, hkv, hmac⟩ := hx
    rw [g7, e2, (ht.other hq hret).2.2.1] at hk'
    have : dn.opens hd.ctx = true := by
      simp only [Data.opens]
      split
      · rename_i h; rw [ha'.hookInMacros]; exact hmac h
      · rfl
    rw [this] at h2
    simp only [gopen, if_true] at h2
    obtain ⟨k2, ci, ci', h5, h6⟩ := (gwalkList_inv h2).2 i k hk
    rw [hk'] at h5
    obtain rfl := Option.some.inj h5
    obtain ⟨dk, mk, kk⟩ := k
    obtain ⟨_, hd2, kids2, ck2, t2, ct2, i1, i2, i3, i4⟩ := gwalk_inv (d := dk) hkv h6
    obtain ⟨_, _, f3⟩ := gtail_inv i4
    have hm2 := (gtarget_inv i3).marks
    cases htl : dk.edge.tail with
    | none => simp only [htl] at f3; rw [f3.1]; simp [RTree.tailMarks, hm2]
    | some tk =>
      simp only [htl] at f3
      split at f3
      · split at f3
        · obtain ⟨hk3, _, hr3, hms⟩ := f3
          have := (render_kind hr3).1
          simp only at this
          simp [RTree.tailMarks, hms, hm2, this]
        · rw [f3.2]; simp [RTree.tailMarks, hm2]
      · rw [f3.1]; simp [RTree.tailMarks, hm2]

theorem HookFact.ofTail {env : Env} {s : Settings} {d : Data} {up : List Data} {n' : RTree}
    {hk : HookData} {c : Nat} (ht : d.edge.tail ≠ none) (hh : hookedAt env s (d :: up) .tail = true)
    (h : IsHook env s (d :: up) .tail n'.bare.start c hk) : HookFact env s (d :: up) n' hk := by
  simp only [HookFact, h.kind]; exact ⟨ht, hh, c, h⟩

theorem reached_tail {env : Env} {s : Settings} {d : Data} {up : List Data}
    (h : reached env s (d :: up) = true) : reached env s up = true := by
  rw [reached_cons] at h; simp only [Bool.and_eq_true] at h; exact h.2

theorem marks_at {env : Env} {s : Settings} {t t' : RTree} {ctx : Ctx}
    {c c' : Counter} {p : List Nat} {d : Data} {up : List Data} (hwf : t.WF)
    (hn : s.bindings.keys.Nodup) (ha : Agrees env s [] ctx)
    (hw : gwalk env ctx t c = .ok (t', c')) (hu : t.upFrom [] p = some (d :: up))
    (hr : reached env s (d :: up) = true) :
    ∃ n', t'.sub p = some n' ∧ n'.marks.length ≤ 1 ∧
      ∀ m ∈ n'.marks, HookFact env s (d :: up) n' m.1 := by
  obtain ⟨n, n', g1, g2, g3⟩ := tail_at hn ha hw hu hr
  refine ⟨n', g2, ?_⟩
  have htail : n'.tailMarks.length ≤ 1 ∧ ∀ m ∈ n'.tailMarks, HookFact env s (d :: up) n' m.1 := by
    split at g3
    · simp [g3]
    · rename_i tk htk
      split at g3
      · rename_i hh
        obtain ⟨hk, m, h1, h2⟩ := g3
        refine ⟨by simp [h1], fun x hx => ?_⟩
        rw [h1, List.mem_singleton] at hx
        rw [hx]
        simp only [Bool.and_eq_true] at hh
        exact HookFact.ofTail (by simp [htk]) hh.2.1 h2
      · simp [g3]
  rcases List.eq_nil_or_concat p with rfl | ⟨q, i, rfl⟩
  · suffices h : n'.marks = n'.tailMarks by rw [h]; exact htail
    have hm : t' = n' := by cases t'; simpa [RTree.sub] using g2
    subst hm
    obtain ⟨dt, mt, kt⟩ := t
    have hv : dt.edge.visit = true := by
      simp only [RTree.upFrom, Option.some.injEq, List.cons.injEq] at hu
      rw [reached_cons, ← hu.1] at hr; simp only [Bool.and_eq_true] at hr; exact hr.1.1
    obtain ⟨_, hd2, kids2, ck2, t2, ct2, i1, i2, i3, i4⟩ := gwalk_inv hv hw
    obtain ⟨_, _, f3⟩ := gtail_inv i4
    have hm2 := (gtarget_inv i3).marks
    cases htl : dt.edge.tail with
    | none => simp only [htl] at f3; rw [f3.1]; simp [RTree.tailMarks, hm2]
    | some tk =>
      simp only [htl] at f3
      split at f3
      · split at f3
        · obtain ⟨hk3, _, hr3, hms⟩ := f3
          have := (render_kind hr3).1
          simp only at this
          simp [RTree.tailMarks, hms, hm2, this]
        · rw [f3.2]; simp [RTree.tailMarks, hm2]
      · rw [f3.1]; simp [RTree.tailMarks, hm2]
  · rw [List.concat_eq_append] at hu g1 g2
    have hup := upFrom_snoc hu
    have hru := reached_tail hr
    cases up with
    | nil => obtain ⟨dt, mt, kt⟩ := t; cases q <;> simp [RTree.upFrom] at hup
             split at hup
             · obtain ⟨l, hl⟩ := upFrom_suffix hup; simp at hl
             · simp at hup
    | cons dp upp =>
      obtain ⟨m, m', k1, k2, k3, k4, k5, k6, k7⟩ := node_at hn ha hw hup hru
      have hnk : m.kids[i]? = some n := by
        rw [sub_append k1] at g1
        cases m; simp only [RTree.sub] at g1
        split at g1
        · rename_i kk hkk
          have : kk = n := by cases kk; simpa [RTree.sub] using g1
          rw [this] at hkk; exact hkk
        · simp at g1
      have hnk' : m'.kids[i]? = some n' := by
        rw [sub_append k2] at g2
        cases m'; simp only [RTree.sub] at g2
        split at g2
        · rename_i kk hkk
          have : kk = n' := by cases kk; simpa [RTree.sub] using g2
          rw [this] at hkk; exact hkk
        · simp at g2
      have hnd : n.data = d := by
        obtain ⟨n2, upn, f1, f2⟩ := upFrom_sub hu
        rw [g1] at f1
        obtain rfl := Option.some.inj f1
        exact (List.cons.inj f2).1.symm
      by_cases hq : ∃ q b, dp.tag = .question q b
      · obtain ⟨qs, b, hq⟩ := hq
        obtain ⟨a, a', k', j1, j2, j3, j4, j5, j6, j7⟩ := question_at hwf hn ha hw hup hq hru
        rw [k2] at j2; obtain rfl := Option.some.inj j2
        rw [j5] at hnk'
        cases i with
        | succ i => simp at hnk'
        | zero =>
          simp at hnk'; subst hnk'
          split at j6
          · rename_i hh
            obtain ⟨hk, m, h1, h2⟩ := j6
            refine ⟨by simp [h1], fun x hx => ?_⟩
            rw [h1, List.mem_singleton] at hx
            rw [hx]
            simp only [HookFact, h2.kind]
            exact ⟨qs, b, m, hq, hh, h2⟩
          · simp [j6]
      · by_cases hret : dp.tag = .ret
        · obtain ⟨a, a', j1, j2, j3, j4⟩ := return_at hwf hn ha hw hup hret hru
          rw [k2] at j2; obtain rfl := Option.some.inj j2
          rcases j4 with ⟨_, j4⟩ | ⟨k, k', j4, j5, j6, j7⟩
          · rw [j4] at hnk'; simp at hnk'
          · rw [j5] at hnk'
            cases i with
            | succ i => simp at hnk'
            | zero =>
              simp at hnk'; subst hnk'
              split at j7
              · rename_i hh
                obtain ⟨hk, m, h1, h2⟩ := j7
                refine ⟨by simp [h1], fun x hx => ?_⟩
                rw [h1, List.mem_singleton] at hx
                rw [hx]
                simp only [Bool.and_eq_true] at hh
                simp only [HookFact, h2.kind]
                exact ⟨m, hret, hh.1, h2⟩
              · simp [j7]
        · have := k7 (by simpa using hq) hret i n' hnk' ⟨n, hnk, by
            rw [reached_cons] at hr; simp only [Bool.and_eq_true] at hr; rw [hnd]; exact hr.1.1, by
            intro hmac
            rw [reached_cons] at hr; simp only [Bool.and_eq_true] at hr
            simpa [hmac] using hr.1.2⟩
          rw [this]; exact htail

end Hooq
