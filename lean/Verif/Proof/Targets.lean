import Verif.Proof.Locality
import Verif.Proof.Expand

/-!
# The three kinds of targets at a position
-/

namespace Hooq

@[simp] theorem RTree.data_mk (d ms ks) : (RTree.mk d ms ks).data = d := rfl
@[simp] theorem RTree.marks_mk (d ms ks) : (RTree.mk d ms ks).marks = ms := rfl
@[simp] theorem RTree.kids_mk (d ms ks) : (RTree.mk d ms ks).kids = ks := rfl

theorem sub_append {t n : RTree} {p : List Nat} (h : t.sub p = some n) (q : List Nat) :
    t.sub (p ++ q) = n.sub q := by
  induction p generalizing t with
  | nil => obtain ⟨d, ms, ks⟩ := t; cases h; rfl
  | cons i p ih =>
    obtain ⟨d, ms, ks⟩ := t
    rw [List.cons_append]
    simp only [RTree.sub] at h ⊢
    split at h
    · exact ih h
    · simp at h

theorem sub_head {t : RTree} {k : RTree} (h : t.kids[0]? = some k) : t.sub [0] = some k := by
  obtain ⟨d, ms, ks⟩ := t
  simp only [RTree.kids] at h
  simp [RTree.sub, h]

theorem gwalk_marks {env : Env} {ctx : Ctx} {t t' : RTree} {c c' : Counter}
    (hv : t.data.edge.visit = true) (ht : t.data.edge.tail = none)
    (h : gwalk env ctx t c = .ok (t', c')) : t'.marks = [] := by
  obtain ⟨d, ms, kids⟩ := t
  rw [RTree.data_mk] at ht hv
  obtain ⟨_, hd, kids', ck, t1, ct, h1, h2, h3, h4⟩ := gwalk_inv hv h
  have := (gtail_inv h4).2.2
  rw [ht] at this
  rw [this.1]
  exact (gtarget_inv h3).marks

theorem has_eq {env : Env} {s : Settings} {d : Data} {up : List Data} {hd : Handled}
    (ha : Agrees env s (d :: up) hd.ctx) (hs : hd.isSkipped = hd.ctx.isSkipped) (k : Kind) :
    (!hd.isSkipped && hd.ctx.targets.has k) = hookedAt env s (d :: up) k := by
  rw [hs, ha.skipped, ha.targets]; rfl

/-- A target as written, without its inert attributes. -/
def RTree.asSource (t : RTree) : RTree := sourceTree t.data t.data.kept t.kids

theorem endsIn_any (p : Path) (l : List String) : (l.any fun x => p.isEndOf x) = endsIn (some p) l := by
  simp only [Path.isEndOf, endsIn]
  cases p.segs.getLast? with
  | none => simp
  | some g =>
    simp only [List.contains_eq_any_beq]

theorem returnsResult_eq {env : Env} {s : Settings} {up : List Data} {c : Ctx}
    (h : Agrees env s up c) : c.returnsResult = resultAt env s up := by
  simp only [Ctx.returnsResult, h.fnVal, resultAt, outputAt]
  cases hi : innermostFn up with
  | none => rfl
  | some f =>
    have key : ∀ r : RetType, r.isResult c.resultTypes = (match r with
        | .path p => endsIn (some p) (resultTypesAt env s up)
        | _ => false) := by
      intro r
      cases r <;> simp [RetType.isResult, h.resultTypes, endsIn_any]
    cases f <;> simp only [Option.map_some, fnInfoOf, FnInfo.output, key] <;> rfl

theorem retRule_eq {env : Env} {s : Settings} {up : List Data} {c : Ctx} (h : Agrees env s up c)
    (cl : Option Path) : retRule c cl = returnWanted env s up cl := by
  simp only [retRule, returnWanted, returnsResult_eq h]
  cases cl with
  | none => rfl
  | some p => simp only [Ctx.isErrLike, Ctx.isOkLike, endsIn_any, h.tailIdents, h.ignoreIdents]

theorem tailRule_eq {env : Env} {s : Settings} {up : List Data} {c : Ctx} (h : Agrees env s up c)
    (tk : TailKind) (cl : Option Path) : tailRule c tk cl = tailWanted env s up tk cl := by
  simp only [tailRule, tailWanted, returnsResult_eq h]
  cases cl with
  | none => cases tk <;> cases resultAt env s up <;> rfl
  | some p =>
    simp only [Ctx.isErrLike, Ctx.isOkLike, endsIn_any, h.tailIdents, h.ignoreIdents]
    cases tk <;> cases resultAt env s up <;> rfl

/-- `?` targets. -/
theorem question_at {env : Env} {s : Settings} {t t' : RTree} {ctx : Ctx} {up0 up : List Data}
    {c c' : Counter} {p : List Nat} {d : Data} {q : Span} {b : Bool} (hwf : t.WF)
    (hn : s.bindings.keys.Nodup) (ha : Agrees env s up0 ctx)
    (hw : gwalk env ctx t c = .ok (t', c')) (hu : t.upFrom up0 p = some (d :: up))
    (hq : d.tag = .question q b) (hr : reached env s (d :: up) = true) :
    ∃ n n' k', t.sub p = some n ∧ t'.sub p = some n' ∧ t'.sub (p ++ [0]) = some k' ∧
      n.data.tag = .question q false ∧ n'.kids = [k'] ∧
      (if hookedAt env s (d :: up) .question then
        ∃ hk m, k'.marks = [(hk, n.asSource)] ∧ IsHook env s (d :: up) .question q m hk
       else k'.marks = []) ∧
      n'.data.tag = .question q (hookedAt env s (d :: up) .question && (methodAt env s (d :: up)).exc) := by
  obtain ⟨n, n0, n', upn, ctx', c1, c2, g1, g2, g3, g4, g5, g6, g7, g8⟩ := gwalk_local ha hw hu hr
  obtain ⟨rfl, rfl⟩ := List.cons.inj g3
  have hnwf := WF_sub hwf g1
  obtain ⟨dn, ms, kids⟩ := n
  simp only [RTree.data_mk] at *
  have hv : dn.edge.visit = true := by
    rw [reached_cons] at hr; simp only [Bool.and_eq_true] at hr; exact hr.1.1
  obtain ⟨hb, hd, kids', ck, t1, ct, h1, h2, h3, h4⟩ := gwalk_inv hv g5
  have hbf : b = false := by
    cases b with
    | false => rfl
    | true => simp [RTree.built, hq] at hb
  subst hbf
  have ha' := agrees_step g4 h1
  obtain ⟨hkept, hskip⟩ := handle_kept h1
  have hopen : dn.opens hd.ctx = true := by simp [Data.opens, hq]
  rw [hopen] at h2
  simp only [gopen, if_true] at h2
  obtain ⟨k, rfl, he⟩ : ∃ k, kids = [k] ∧ k.data.edge = {} := by
    have := hnwf.1; simp only [nodeOk, hq] at this; exact this.1
  simp only [gwalkList] at h2
  obtain ⟨k1, ck1, hk1, h2⟩ := W.bind_ok h2
  simp only [pure_bind] at h2
  obtain ⟨rfl, rfl⟩ := W.pure_ok h2
  have hm : k1.marks = [] := gwalk_marks (by rw [he]) (by rw [he]) hk1
  obtain ⟨e1, e2, e3⟩ := gtail_inv h4
  have ht := gtarget_inv h3
  have htq := ht.question q false hq
  rw [has_eq ha' hskip] at htq
  rcases Bool.eq_false_or_eq_true (hookedAt env s (dn :: up) .question) with hh | hh
  rotate_left
  · simp only [hh, Bool.false_eq_true, if_false] at htq ⊢
    have hkk : n'.kids = [k1] := by rw [g7, e2, htq.2.1]
    refine ⟨_, n', k1, g1, g2, ?_, hq, hkk, hm, by simp [g6, e1, htq.2.2.1, hq]⟩
    rw [sub_append g2]; exact sub_head (by rw [hkk]; rfl)
  · simp only [hh, if_true] at htq ⊢
    obtain ⟨hk, hc, hrn, hkids, htag⟩ := htq
    have hkk : n'.kids = [k1.addMark (hk, (RTree.mk dn ms [k]).asSource)] := by
      rw [g7, e2, hkids]; simp [markHead, RTree.asSource, RTree.data, RTree.kids, hkept]
    have hish := render_isHook (r := ⟨hd.ctx, .question, ct.get .question, q, _⟩) ha' hn hrn
    refine ⟨_, n', k1.addMark (hk, (RTree.mk dn ms [k]).asSource), g1, g2, ?_, hq, hkk,
      ⟨hk, ct.get .question, ?_, hish⟩, ?_⟩
    · rw [sub_append g2]; exact sub_head (by rw [hkk]; rfl)
    · cases k1; simp only [RTree.marks] at hm; subst hm; rfl
    · rw [← hish.exc, g6, e1]
      cases hx : hk.exc
      · simp only [hx, Bool.false_eq_true, if_false] at htag; simp [htag.1, hq]
      · simp only [hx, if_true] at htag; simp [htag.1]

/-- `return` targets with a value. -/
theorem return_at {env : Env} {s : Settings} {t t' : RTree} {ctx : Ctx} {up0 up : List Data}
    {c c' : Counter} {p : List Nat} {d : Data} (hwf : t.WF)
    (hn : s.bindings.keys.Nodup) (ha : Agrees env s up0 ctx)
    (hw : gwalk env ctx t c = .ok (t', c')) (hu : t.upFrom up0 p = some (d :: up))
    (hq : d.tag = .ret) (hr : reached env s (d :: up) = true) :
    ∃ n n', t.sub p = some n ∧ t'.sub p = some n' ∧ n'.data.tag = .ret ∧
      ((n.kids = [] ∧ n'.kids = []) ∨
       ∃ k k', n.kids = [k] ∧ n'.kids = [k'] ∧ t'.sub (p ++ [0]) = some k' ∧
        (if hookedAt env s (d :: up) .ret && returnWanted env s (d :: up) k'.bare.callee then
          ∃ hk m, k'.marks = [(hk, n.asSource)] ∧ IsHook env s (d :: up) .ret d.span m hk
         else k'.marks = [])) := by
  obtain ⟨n, n0, n', upn, ctx', c1, c2, g1, g2, g3, g4, g5, g6, g7, g8⟩ := gwalk_local ha hw hu hr
  obtain ⟨rfl, rfl⟩ := List.cons.inj g3
  have hnwf := WF_sub hwf g1
  obtain ⟨dn, ms, kids⟩ := n
  simp only [RTree.data_mk] at *
  have hv : dn.edge.visit = true := by
    rw [reached_cons] at hr; simp only [Bool.and_eq_true] at hr; exact hr.1.1
  obtain ⟨hb, hd, kids', ck, t1, ct, h1, h2, h3, h4⟩ := gwalk_inv hv g5
  have ha' := agrees_step g4 h1
  obtain ⟨hkept, hskip⟩ := handle_kept h1
  have hopen : dn.opens hd.ctx = true := by simp [Data.opens, hq]
  rw [hopen] at h2
  simp only [gopen, if_true] at h2
  obtain ⟨e1, e2, e3⟩ := gtail_inv h4
  have ht := gtarget_inv h3
  have htq := ht.ret hq
  have hnode := hnwf.1
  simp only [nodeOk, hq] at hnode
  rcases hnode with rfl | ⟨k, rfl, he⟩
  · simp only [gwalkList] at h2
    obtain ⟨rfl, rfl⟩ := W.pure_ok h2
    refine ⟨_, n', g1, g2, by rw [g6, e1, htq.1], .inl ⟨rfl, ?_⟩⟩
    rw [g7, e2, htq.2.2.1]
  · simp only [gwalkList] at h2
    obtain ⟨k1, ck1, hk1, h2⟩ := W.bind_ok h2
    simp only [pure_bind] at h2
    obtain ⟨rfl, rfl⟩ := W.pure_ok h2
    have hm : k1.marks = [] := gwalk_marks (by rw [he]) (by rw [he]) hk1
    have hbare : ∀ m, (k1.addMark m).bare = k1 := by
      intro m; cases k1; simp only [RTree.marks_mk] at hm; subst hm; rfl
    have hbare0 : k1.bare = k1 := by cases k1; simp only [RTree.marks_mk] at hm; subst hm; rfl
    have htq2 := htq.2.2
    simp only [has_eq ha' hskip, retRule_eq ha'] at htq2
    refine ⟨_, n', g1, g2, by rw [g6, e1, htq.1], .inr ⟨k, ?_⟩⟩
    cases hwant : returnWanted env s (dn :: up) k1.callee with
    | false =>
      simp only [hwant, Bool.false_eq_true, if_false] at htq2
      have hkk : n'.kids = [k1] := by rw [g7, e2, htq2.1]
      refine ⟨k1, rfl, hkk, ?_, by simp [hbare0, hwant, hm]⟩
      rw [sub_append g2]; exact sub_head (by rw [hkk]; rfl)
    | true =>
      simp only [hwant, if_true] at htq2
      rcases Bool.eq_false_or_eq_true (hookedAt env s (dn :: up) .ret) with hh | hh
      rotate_left
      · simp only [hh, Bool.false_eq_true, if_false] at htq2
        have hkk : n'.kids = [k1] := by rw [g7, e2, htq2.2]
        refine ⟨k1, rfl, hkk, ?_, by simp [hh, hm]⟩
        rw [sub_append g2]; exact sub_head (by rw [hkk]; rfl)
      · simp only [hh, if_true] at htq2
        obtain ⟨hk, hc, hrn, hkids⟩ := htq2
        have hkk : n'.kids = [k1.addMark (hk, (RTree.mk dn ms [k]).asSource)] := by
          rw [g7, e2, hkids]; simp [markHead, RTree.asSource, hkept]
        have hish := render_isHook (r := ⟨hd.ctx, .ret, ct.get .ret, dn.span, _⟩) ha' hn hrn
        refine ⟨k1.addMark (hk, (RTree.mk dn ms [k]).asSource), rfl, hkk, ?_, ?_⟩
        · rw [sub_append g2]; exact sub_head (by rw [hkk]; rfl)
        · simp only [hbare, hwant, hh, Bool.and_true, if_true]
          refine ⟨hk, ct.get .ret, ?_, hish⟩
          cases k1; simp only [RTree.marks_mk] at hm; subst hm; rfl

/-- Trailing expressions, and all other nodes. -/
theorem tail_at {env : Env} {s : Settings} {t t' : RTree} {ctx : Ctx} {up0 up : List Data}
    {c c' : Counter} {p : List Nat} {d : Data}
    (hn : s.bindings.keys.Nodup) (ha : Agrees env s up0 ctx)
    (hw : gwalk env ctx t c = .ok (t', c')) (hu : t.upFrom up0 p = some (d :: up))
    (hr : reached env s (d :: up) = true) :
    ∃ n n', t.sub p = some n ∧ t'.sub p = some n' ∧
      (match d.edge.tail with
       | none => n'.tailMarks = []
       | some tk =>
        if d.mode ≠ .untouched ∧
            (hookedAt env s (d :: up) .tail && tailWanted env s (d :: up) tk n'.bare.callee) = true then
          ∃ hk m, n'.tailMarks = [(hk, n.asSource)] ∧
            IsHook env s (d :: up) .tail n'.bare.start m hk
         else n'.tailMarks = []) := by
  obtain ⟨n, n0, n', upn, ctx', c1, c2, g1, g2, g3, g4, g5, g6, g7, g8⟩ := gwalk_local ha hw hu hr
  obtain ⟨rfl, rfl⟩ := List.cons.inj g3
  obtain ⟨dn, ms, kids⟩ := n
  simp only [RTree.data_mk] at *
  have hv : dn.edge.visit = true := by
    rw [reached_cons] at hr; simp only [Bool.and_eq_true] at hr; exact hr.1.1
  obtain ⟨hb, hd, kids', ck, t1, ct, h1, h2, h3, h4⟩ := gwalk_inv hv g5
  have ha' := agrees_step g4 h1
  obtain ⟨hkept, hskip⟩ := handle_kept h1
  obtain ⟨e1, e2, e3⟩ := gtail_inv h4
  have ht := gtarget_inv h3
  refine ⟨_, n', g1, g2, ?_⟩
  have hbare : n'.bare = t1 := by
    have hm1 := ht.marks
    obtain ⟨da, ma, ka⟩ := n'
    obtain ⟨db, mb, kb⟩ := t1
    simp only [RTree.data_mk, RTree.kids_mk, RTree.marks_mk] at g6 g7 e1 e2 hm1
    simp [RTree.bare, g6, g7, e1, e2, hm1]
  have hm : t1.tailMarks = [] := by simp [RTree.tailMarks, ht.marks]
  simp only [has_eq ha' hskip, tailRule_eq ha'] at e3
  rw [hbare, g8]
  cases htl : dn.edge.tail with
  | none => simp only [htl] at e3 ⊢; rw [e3.1, hm]
  | some tk =>
    simp only [htl] at e3 ⊢
    by_cases hmode : dn.mode = .untouched
    · simp only [hmode, ne_eq, not_true_eq_false, false_and, if_false] at e3 ⊢
      rw [e3.1, hm]
    · simp only [ne_eq, hmode, not_false_eq_true, true_and] at e3 ⊢
      cases hwant : tailWanted env s (dn :: up) tk t1.callee with
      | false =>
        simp only [hwant, Bool.false_eq_true, if_false, Bool.and_false] at e3 ⊢
        rw [e3.1, hm]
      | true =>
        simp only [hwant, if_true] at e3
        cases hh : hookedAt env s (dn :: up) .tail with
        | false =>
          simp only [hh, Bool.false_eq_true, if_false, Bool.false_and] at e3 ⊢
          rw [e3.2, hm]
        | true =>
          simp only [hh, if_true, Bool.true_and] at e3 ⊢
          obtain ⟨hk, hc, hrn, hms⟩ := e3
          have hish := render_isHook (r := ⟨hd.ctx, .tail, c2.get .tail, t1.start, _⟩) ha' hn hrn
          refine ⟨hk, c2.get .tail, ?_, hish⟩
          simp [RTree.tailMarks, hms, ht.marks, hish.kind, RTree.asSource, hkept]

end Hooq
