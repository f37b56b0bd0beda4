import Verif.Proof.Always

/-!
# When every hook can be attached
-/

namespace Hooq

/-- What a walked node looks like from outside, compared with the node as written. -/
structure Looks (t t' : RTree) : Prop where
  callee : t.data.edge.tail = none → t'.callee = t.callee
  asPath : t.data.edge.tail = none → t'.asPath = t.asPath
  rear : t'.rear = .stuck ↔ t.rear = .stuck

theorem Looks.refl (t : RTree) : Looks t t := ⟨fun _ => rfl, fun _ => rfl, Iff.rfl⟩

theorem looks_list (ks : List RTree) : List.Forall₂ Looks ks ks := by
  induction ks with
  | nil => exact .nil
  | cons k ks ih => exact .cons (Looks.refl k) ih

theorem rearLast_looks {ks ks' : List RTree} (h : List.Forall₂ Looks ks ks') :
    RTree.rearLast ks' = .stuck ↔ RTree.rearLast ks = .stuck := by
  induction h with
  | nil => exact Iff.rfl
  | cons h1 h2 ih =>
    cases h2 with
    | nil => simp only [RTree.rearLast]; exact h1.rear
    | cons h3 h4 => simp only [RTree.rearLast] at ih ⊢; exact ih

theorem inner_stuck_iff (r : Rear) : r.inner = .stuck ↔ r = .stuck := by
  cases r <;> simp [Rear.inner]

/-- A node that keeps its tag looks the same if its children do. -/
theorem looks_same {d d' : Data} {ms : List (HookData × RTree)} {ks ks' : List RTree}
    (hb : (RTree.mk d ms ks).built = false) (ht : d'.tag = d.tag) (hr : d'.rear = d.rear)
    (hwf : nodeOk d ks) (h : List.Forall₂ Looks ks ks') :
    (RTree.mk d' [] ks').callee = (RTree.mk d ms ks).callee ∧
      (RTree.mk d' [] ks').asPath = (RTree.mk d ms ks).asPath ∧
      ((RTree.mk d' [] ks').rear = .stuck ↔ (RTree.mk d ms ks).rear = .stuck) := by
  simp only [RTree.built, Bool.or_eq_false_iff] at hb
  obtain ⟨hms, hb⟩ := hb
  have hms : ms = [] := by simpa using hms
  subst hms
  simp only [RTree.callee, RTree.asPath, RTree.rear, List.map_nil, List.foldl_nil, ht, hr]
  cases htag : d.tag with
  | question q b =>
    cases b with
    | true => simp [htag] at hb
    | false =>
    refine ⟨rfl, rfl, ?_⟩
    cases d.rear
    · simp
    · simp only [inner_stuck_iff]; exact rearLast_looks h
    · simp
  | call =>
    simp only [nodeOk, htag] at hwf
    obtain ⟨k, ks0, rfl, he⟩ := hwf
    refine ⟨?_, rfl, ?_⟩
    · cases h with
      | cons h1 h2 => simp only [RTree.asPathHead]; exact h1.asPath (by rw [he])
    · cases d.rear
      · simp
      · simp only [inner_stuck_iff]; exact rearLast_looks h
      · simp
  | _ =>
    refine ⟨rfl, rfl, ?_⟩
    cases d.rear
    · simp
    · simp only [inner_stuck_iff]; exact rearLast_looks h
    · simp

theorem blockedIn_kid {env : Env} {s : Settings} {d : Data} {ms : List (HookData × RTree)}
    {kids : List RTree} {up0 : List Data} {i : Nat} {k : RTree} (hk : kids[i]? = some k)
    (h : BlockedIn env s k (d :: up0)) : BlockedIn env s (.mk d ms kids) up0 := by
  obtain ⟨p, n, up, h1, h2, h3⟩ := h
  exact ⟨i :: p, n, up, by simp [RTree.sub, hk, h1], by simp [RTree.upFrom, hk, h2], h3⟩

theorem blockedIn_cases {env : Env} {s : Settings} {d : Data} {ms : List (HookData × RTree)}
    {kids : List RTree} {up0 : List Data} (h : BlockedIn env s (.mk d ms kids) up0) :
    Blocked env s (.mk d ms kids) up0 ∨
      ∃ (i : Nat) (k : RTree), kids[i]? = some k ∧ BlockedIn env s k (d :: up0) := by
  obtain ⟨p, n, up, h1, h2, h3, h4⟩ := h
  cases p with
  | nil =>
    simp only [RTree.sub, Option.some.injEq] at h1
    subst h1
    simp only [RTree.upFrom, Option.some.injEq, RTree.data_mk, List.cons.injEq, true_and] at h2
    subst h2
    exact .inl h4
  | cons i p =>
    simp only [RTree.sub] at h1
    simp only [RTree.upFrom] at h2
    split at h1
    · rename_i k hk
      simp only [hk] at h2
      exact .inr ⟨i, k, hk, p, n, up, h1, h2, h3, h4⟩
    · simp at h1

/-- What is blocked is reached. -/
theorem blockedIn_reached {env : Env} {s : Settings} {t : RTree} {up0 : List Data}
    (h : BlockedIn env s t up0) : reached env s (t.data :: up0) = true := by
  obtain ⟨p, n, up, -, h2, h3, -⟩ := h
  obtain ⟨l, hl⟩ := upFrom_suffix h2
  rw [hl] at h3
  exact reached_suffix l _ h3

/-- What a hook built by a working method does. -/
theorem render_works {env : Env} {s : Settings} {up : List Data} {r : RInfo}
    (ha : Agrees env s up r.ctx) (hn : s.bindings.keys.Nodup) (hw : WorksAt env s up) :
    (∀ hk, render env r = .ok hk → hk.mode = .insert ∧ r.rear ≠ .stuck ∧ ∀ x, hookRear x hk ≠ .stuck) ∧
    (∀ e, render env r = .error e → r.rear = .stuck) := by
  obtain ⟨dot, ts, exc, h1, h2⟩ := hw
  obtain ⟨out, h3, re, h4, h5⟩ := h2 r.kind r.span r.count
  rw [← expandMethod_iff ha hn] at h3
  rw [← ha.method_val] at h1
  simp only [render, h3, h1, h4, bind, Except.bind]
  cases hr : r.rear with
  | stuck => simp
  | whole =>
    refine ⟨fun hk hh => ?_, by simp⟩
    obtain rfl := Except.ok.inj hh
    refine ⟨rfl, by simp, fun x => ?_⟩
    simp only [hookRear]
    split
    · simp
    · exact h5
  | part =>
    refine ⟨fun hk hh => ?_, by simp⟩
    obtain rfl := Except.ok.inj hh
    refine ⟨rfl, by simp, fun x => ?_⟩
    simp only [hookRear]
    split
    · simp
    · exact h5

mutual

theorem gwalk_attach {env : Env} {s : Settings} (hn : s.bindings.keys.Nodup) :
    ∀ (t : RTree) ⦃ctx : Ctx⦄ ⦃up0 : List Data⦄ (c : Counter),
    (∀ p n, t.sub p = some n → n.built = false) → t.WF → Agrees env s up0 ctx →
    (t.data.edge.visit = true → reached env s (t.data :: up0) = true) → AllInOrder env s t up0 →
    (∀ e, gwalk env ctx t c = .error e → BlockedIn env s t up0) ∧
    (∀ t' c', gwalk env ctx t c = .ok (t', c') → ¬ BlockedIn env s t up0 ∧ Looks t t')
  | .mk d ms kids, ctx, up0, c, hsrc, hwf, ha, hr, hord => by
    have ih := @gwalkList_attach env s hn kids
    cases hv : d.edge.visit with
    | false =>
      simp only [gwalk, hv, Bool.false_eq_true, if_false]
      refine ⟨fun e h => (W.pure_err h).elim, fun t' c' h => ?_⟩
      obtain ⟨rfl, rfl⟩ := W.pure_ok h
      refine ⟨fun hbl => ?_, Looks.refl _⟩
      have := blockedIn_reached hbl
      rw [reached_cons, RTree.data_mk, hv] at this
      simp at this
    | true =>
    have hr := hr hv
    rw [RTree.data_mk] at hr
    have hb : (RTree.mk d ms kids).built = false := hsrc [] _ (by simp [RTree.sub])
    obtain ⟨hattrs, hworks⟩ := hord [] d up0 (by simp [RTree.upFrom]) hr
    have here : Blocked env s (.mk d ms kids) up0 → BlockedIn env s (.mk d ms kids) up0 := fun hf =>
      ⟨[], .mk d ms kids, up0, by simp [RTree.sub], by simp [RTree.upFrom], hr, hf⟩
    simp only [gwalk, hv, if_true, hb, Bool.false_eq_true, if_false]
    obtain ⟨hd, h1⟩ : ∃ hd, d.handle env (d.edge.enter ctx) = .ok hd := by
      cases h : d.handle env (d.edge.enter ctx) with
      | ok hd => exact ⟨hd, rfl⟩
      | error e =>
        obtain ⟨a, h1, h2⟩ := handle_err h
        exact absurd (hattrs a h1) h2
    have ha' := agrees_step ha h1
    obtain ⟨hkept, hskip⟩ := handle_kept h1
    rw [W.bind_of_ok (show W.lift (d.handle env (d.edge.enter ctx)) c = .ok (hd, c) by rw [h1]; rfl)]
    have ih := ih c (fun i k hk p n hp => hsrc (i :: p) n (by simp [RTree.sub, hk, hp])) hwf.2 ha'
    have hkids : (∀ e, gopen (d.opens hd.ctx) kids (gwalkList env hd.ctx kids) c = .error e →
          ∃ (i : Nat) (k : RTree), kids[i]? = some k ∧ BlockedIn env s k (d :: up0)) ∧
        (∀ ts' c', gopen (d.opens hd.ctx) kids (gwalkList env hd.ctx kids) c = .ok (ts', c') →
          (∀ (i : Nat) k, kids[i]? = some k → ¬ BlockedIn env s k (d :: up0)) ∧
            List.Forall₂ Looks kids ts') := by
      simp only [gopen]
      split
      · rename_i hop
        refine ih (fun k hvk => ?_) fun i k hk p d' up h1 h2 => hord (i :: p) d' up (by simp [RTree.upFrom, hk, h1]) h2
        rw [reached_cons, hvk, hr]
        simp only [Data.opens] at hop
        rw [ha'.hookInMacros] at hop
        simp only [Bool.true_and, Bool.and_true, Bool.or_eq_true, bne_iff_ne]
        by_cases hm : d.tag = .mac
        · simp only [hm] at hop; exact .inr hop
        · exact .inl hm
      · rename_i hop
        refine ⟨fun e h => (W.pure_err h).elim, fun ts' c' h => ?_⟩
        obtain ⟨rfl, rfl⟩ := W.pure_ok h
        refine ⟨fun i k hk hbl => ?_, looks_list kids⟩
        have := blockedIn_reached hbl
        rw [reached_cons] at this
        simp only [Bool.and_eq_true] at this
        simp only [Data.opens] at hop
        rw [ha'.hookInMacros] at hop
        by_cases hm : d.tag = .mac
        · simp only [hm] at hop this
          exact hop (by simpa using this.1.2)
        · revert hop; cases htag : d.tag <;> simp_all
    have hren : ∀ k n sp rear, hookedAt env s (d :: up0) k = true →
        (∀ hk, render env { ctx := hd.ctx, kind := k, count := n, span := sp, rear := rear } = .ok hk →
          hk.mode = .insert ∧ rear ≠ .stuck ∧ ∀ x, hookRear x hk ≠ .stuck) ∧
        (∀ e, render env { ctx := hd.ctx, kind := k, count := n, span := sp, rear := rear } = .error e →
          rear = .stuck) := fun k n sp rear hh =>
      render_works (r := ⟨hd.ctx, k, n, sp, rear⟩) ha' hn (hworks ⟨k, hh⟩)
    -- after the children
    cases h2 : gopen (d.opens hd.ctx) kids (gwalkList env hd.ctx kids) c with
    | error e =>
      obtain ⟨i, k, hk, hs⟩ := hkids.1 e h2
      refine ⟨fun e' _ => blockedIn_kid hk hs, fun t' c' h => ?_⟩
      obtain ⟨a, c1, h3, -⟩ := W.bind_ok h
      rw [h2] at h3; cases h3
    | ok r =>
    obtain ⟨kids', c2⟩ := r
    obtain ⟨hnb, hlk⟩ := hkids.2 _ _ h2
    rw [W.bind_of_ok h2]
    -- the `?` and `return` step
    have htarget : (∀ e, gtarget env hd d kids kids' c2 = .error e → Blocked env s (.mk d ms kids) up0) ∧
        (∀ t1 c3, gtarget env hd d kids kids' c2 = .ok (t1, c3) →
          (d.edge.tail = none → ¬ Blocked env s (.mk d ms kids) up0) ∧
          (Blocked env s (.mk d ms kids) up0 → ∃ tk, d.edge.tail = some tk ∧ d.mode ≠ .untouched ∧
            hookedAt env s (d :: up0) .tail = true ∧
            tailWanted env s (d :: up0) tk (RTree.mk d ms kids).callee = true ∧
            (RTree.mk d ms kids).rear = .stuck) ∧
          t1.callee = (RTree.mk d ms kids).callee ∧ t1.asPath = (RTree.mk d ms kids).asPath ∧
          (t1.rear = .stuck ↔ (RTree.mk d ms kids).rear = .stuck)) := by
      have tailCase : (∀ q, d.tag = .question q false → ∀ k, kids = [k] →
            hookedAt env s (d :: up0) .question = true → k.rear ≠ .stuck) →
          (d.tag = .ret → ∀ k, kids = [k] → hookedAt env s (d :: up0) .ret = true →
            returnWanted env s (d :: up0) k.callee = true → k.rear ≠ .stuck) →
          (d.edge.tail = none → ¬ Blocked env s (.mk d ms kids) up0) ∧
          (Blocked env s (.mk d ms kids) up0 → ∃ tk, d.edge.tail = some tk ∧ d.mode ≠ .untouched ∧
            hookedAt env s (d :: up0) .tail = true ∧
            tailWanted env s (d :: up0) tk (RTree.mk d ms kids).callee = true ∧
            (RTree.mk d ms kids).rear = .stuck) := by
        intro w1 w2
        have : Blocked env s (.mk d ms kids) up0 → ∃ tk, d.edge.tail = some tk ∧ d.mode ≠ .untouched ∧
            hookedAt env s (d :: up0) .tail = true ∧
            tailWanted env s (d :: up0) tk (RTree.mk d ms kids).callee = true ∧
            (RTree.mk d ms kids).rear = .stuck := by
          intro hbl
          cases hbl with
          | question q k g1 g2 g3 g4 => exact absurd g4 (w1 q g1 k g2 g3)
          | ret k g1 g2 g3 g4 g5 => exact absurd g5 (w2 g1 k g2 g3 g4)
          | tail tk g1 g2 g3 g4 g5 => exact ⟨tk, g1, g2, g3, g4, g5⟩
        refine ⟨fun ht hbl => ?_, this⟩
        obtain ⟨tk, h5, -⟩ := this hbl
        rw [ht] at h5
        cases h5
      constructor
      · intro e h
        rcases gtarget_err h with ⟨q, b, hq, h4, h5⟩ | ⟨hq, k1, ks1, rfl, hrule, h4, h5⟩
        · have hbf : b = false := by
            cases b with
            | false => rfl
            | true => simp [RTree.built, hq] at hb
          subst hbf
          rw [has_eq ha' hskip] at h4
          have hnode := hwf.1
          simp only [nodeOk, hq] at hnode
          obtain ⟨⟨k, rfl, -⟩, -⟩ := hnode
          obtain ⟨k', ks', hkk, hnil, rfl⟩ := List.forall₂_cons_left_iff.1 hlk
          have := (hren .question _ _ _ h4).2 e h5
          exact .question q k hq rfl h4 (hkk.rear.1 this)
        · rw [has_eq ha' hskip] at h4
          rw [retRule_eq ha'] at hrule
          have hnode := hwf.1
          simp only [nodeOk, hq] at hnode
          rcases hnode with rfl | ⟨k, rfl, he⟩
          · cases hlk
          · obtain ⟨hkk, -⟩ := List.forall₂_cons.1 hlk
            rw [hkk.callee (by rw [he])] at hrule
            exact .ret k hq rfl h4 hrule (hkk.rear.1 ((hren .ret _ _ _ h4).2 e h5))
      · intro t1 c3 h
        have hto := gtarget_inv h
        have hm1 := hto.marks
        have hrear := hto.rear
        cases htag : d.tag with
        | question q b =>
          have hbf : b = false := by
            cases b with
            | false => rfl
            | true => simp [RTree.built, htag] at hb
          subst hbf
          have htq := hto.question q _ htag
          rw [has_eq ha' hskip] at htq
          have hnode := hwf.1
          simp only [nodeOk, htag] at hnode
          obtain ⟨⟨k, rfl, he⟩, hcl⟩ := hnode
          obtain ⟨k', ks', hkk, hnil, rfl⟩ := List.forall₂_cons_left_iff.1 hlk
          obtain rfl := List.forall₂_nil_left_iff.1 hnil
          obtain ⟨d1, m1, ks1⟩ := t1
          simp only [RTree.data_mk, RTree.kids_mk, RTree.marks_mk] at hm1 hrear htq
          subst hm1
          cases hh : hookedAt env s (d :: up0) .question with
          | false =>
            simp only [hh, Bool.false_eq_true, if_false] at htq
            obtain ⟨-, rfl, ht1, -⟩ := htq
            obtain ⟨g1, g2⟩ := tailCase (fun _ _ _ _ h => by rw [hh] at h; cases h)
              (fun h => by rw [htag] at h; cases h)
            exact ⟨g1, g2, looks_same hb ht1 hrear hwf.1 hlk⟩
          | true =>
            simp only [hh, if_true] at htq
            obtain ⟨hk, -, hrn, rfl, hx⟩ := htq
            obtain ⟨f1, f2, f3⟩ := (hren .question _ _ _ hh).1 hk hrn
            have hks : k.rear ≠ .stuck := fun h => f2 (hkk.rear.2 h)
            obtain ⟨g1, g2⟩ := tailCase (fun q' _ k2 hk2 _ => by
                obtain ⟨rfl, -⟩ := List.cons.inj hk2; exact hks)
              (fun h => by rw [htag] at h; cases h)
            refine ⟨g1, g2, ?_⟩
            cases hxx : hk.exc with
            | false =>
              simp only [hxx, Bool.false_eq_true, if_false] at hx
              have hms : ms = [] := by
                simp only [RTree.built, Bool.or_eq_false_iff] at hb
                simpa using hb.1
              subst hms
              simp [RTree.callee, RTree.asPath, RTree.rear, hx.1, htag, hrear, hcl]
            | true =>
              simp only [hxx, if_true] at hx
              have hms : ms = [] := by
                simp only [RTree.built, Bool.or_eq_false_iff] at hb
                simpa using hb.1
              subst hms
              have e1 : ∀ x, (k'.addMark (hk, x)).callee = none := by
                intro x
                cases k'
                simp [RTree.addMark, RTree.callee, List.foldl_append, hookCallee, f1]
              have e2 : ∀ x, (k'.addMark (hk, x)).asPath = none := by
                intro x
                cases k'
                simp [RTree.addMark, RTree.asPath, List.foldl_append, hookPath, f1]
              have e3 : ∀ x, (k'.addMark (hk, x)).rear ≠ .stuck := by
                intro x
                rw [rear_addMark_hook]
                exact f3 _
              simp only [RTree.callee, RTree.asPath, RTree.rear, hx.1, htag, hcl, List.map_nil, List.foldl_nil,
                markHead, RTree.calleeHead, RTree.asPathHead, RTree.rearLast, e1, e2, true_and]
              exact ⟨fun h => absurd h (e3 _), fun h => by cases h⟩
        | ret =>
          obtain ⟨ht1, -, htq⟩ := hto.ret htag
          have hnode := hwf.1
          simp only [nodeOk, htag] at hnode
          obtain ⟨d1, m1, ks1⟩ := t1
          simp only [RTree.data_mk, RTree.kids_mk, RTree.marks_mk] at hm1 hrear htq ht1
          subst hm1
          have noq : ∀ q, d.tag = .question q false → ∀ k, kids = [k] →
              hookedAt env s (d :: up0) .question = true → k.rear ≠ .stuck :=
            fun q h => by rw [htag] at h; cases h
          rcases hnode with rfl | ⟨k, rfl, he⟩
          · cases hlk
            obtain ⟨rfl, -⟩ := htq
            obtain ⟨g1, g2⟩ := tailCase noq (fun _ k h => by cases h)
            exact ⟨g1, g2, looks_same hb (ht1.trans htag.symm) hrear hwf.1 .nil⟩
          · obtain ⟨k', ks', hkk, hnil, rfl⟩ := List.forall₂_cons_left_iff.1 hlk
            obtain rfl := List.forall₂_nil_left_iff.1 hnil
            simp only [has_eq ha' hskip, retRule_eq ha', hkk.callee (by rw [he])] at htq
            cases hw : returnWanted env s (d :: up0) k.callee with
            | false =>
              simp only [hw, Bool.false_eq_true, if_false] at htq
              obtain ⟨rfl, -⟩ := htq
              obtain ⟨g1, g2⟩ := tailCase noq (fun _ k2 h _ h2 => by
                obtain ⟨rfl, -⟩ := List.cons.inj h; rw [hw] at h2; cases h2)
              exact ⟨g1, g2, looks_same hb (ht1.trans htag.symm) hrear hwf.1 hlk⟩
            | true =>
              simp only [hw, if_true] at htq
              cases hh : hookedAt env s (d :: up0) .ret with
              | false =>
                simp only [hh, Bool.false_eq_true, if_false] at htq
                obtain ⟨-, rfl⟩ := htq
                obtain ⟨g1, g2⟩ := tailCase noq (fun _ k2 _ h2 => by rw [hh] at h2; cases h2)
                exact ⟨g1, g2, looks_same hb (ht1.trans htag.symm) hrear hwf.1 hlk⟩
              | true =>
                simp only [hh, if_true] at htq
                obtain ⟨hk, -, hrn, rfl⟩ := htq
                obtain ⟨f1, f2, f3⟩ := (hren .ret _ _ _ hh).1 hk hrn
                have hks : k.rear ≠ .stuck := fun h => f2 (hkk.rear.2 h)
                obtain ⟨g1, g2⟩ := tailCase noq (fun _ k2 h _ _ => by
                  obtain ⟨rfl, -⟩ := List.cons.inj h; exact hks)
                refine ⟨g1, g2, ?_⟩
                have hms : ms = [] := by
                  simp only [RTree.built, Bool.or_eq_false_iff] at hb
                  simpa using hb.1
                subst hms
                have e3 : ∀ x, (k'.addMark (hk, x)).rear ≠ .stuck := by
                  intro x
                  rw [rear_addMark_hook]
                  exact f3 _
                simp only [RTree.callee, RTree.asPath, RTree.rear, ht1, htag, hrear, List.map_nil, List.foldl_nil,
                  markHead, RTree.rearLast, true_and]
                cases d.rear with
                | closed => simp
                | stuck => simp
                | last =>
                  simp only [inner_stuck_iff]
                  exact ⟨fun h => absurd h (e3 _), fun h => absurd h hks⟩
        | _ =>
          obtain ⟨ht1, -, hk1, -⟩ := hto.other (by simp [htag]) (by simp [htag])
          obtain ⟨d1, m1, ks1⟩ := t1
          simp only [RTree.data_mk, RTree.kids_mk, RTree.marks_mk] at hm1 hrear ht1 hk1
          subst hm1 hk1
          obtain ⟨g1, g2⟩ := tailCase (fun q h => by rw [htag] at h; cases h) (fun h => by rw [htag] at h; cases h)
          exact ⟨g1, g2, looks_same hb ht1 hrear hwf.1 hlk⟩
    cases h3 : gtarget env hd d kids kids' c2 with
    | error e =>
      refine ⟨fun e' _ => here (htarget.1 e h3), fun t' c' h => ?_⟩
      obtain ⟨a, c1, h4, -⟩ := W.bind_ok h
      rw [h3] at h4; cases h4
    | ok r =>
    obtain ⟨t1, c3⟩ := r
    obtain ⟨k1, k2, k3, k4, k5⟩ := htarget.2 _ _ h3
    rw [W.bind_of_ok h3]
    constructor
    · intro e h
      obtain ⟨tk, htk, hm, hrule, h4, h5⟩ := gtail_err h
      rw [has_eq ha' hskip] at h4
      rw [tailRule_eq ha', k3] at hrule
      exact here (.tail tk htk hm h4 hrule (k5.1 ((hren .tail _ _ _ h4).2 e h5)))
    · intro t' c' h
      obtain ⟨e1, e2, e3⟩ := gtail_inv h
      have hbl : ¬ Blocked env s (.mk d ms kids) up0 → ¬ BlockedIn env s (.mk d ms kids) up0 := by
        intro h hbl
        rcases blockedIn_cases hbl with h' | ⟨i, k, hk, h'⟩
        · exact h h'
        · exact hnb i k hk h'
      cases htl : d.edge.tail with
      | none =>
        simp only [htl] at e3
        obtain ⟨rfl, -⟩ := e3
        exact ⟨hbl (k1 htl), fun _ => k3, fun _ => k4, k5⟩
      | some tk =>
        have vac : ∀ {P : Prop}, (RTree.mk d ms kids).data.edge.tail = none → P := by
          intro P ht
          rw [RTree.data_mk, htl] at ht
          cases ht
        simp only [htl] at e3
        rw [tailRule_eq ha', k3, has_eq ha' hskip] at e3
        by_cases hc : d.mode ≠ .untouched ∧ tailWanted env s (d :: up0) tk (RTree.mk d ms kids).callee = true
        · rw [if_pos hc] at e3
          cases hh : hookedAt env s (d :: up0) .tail with
          | false =>
            simp only [hh, Bool.false_eq_true, if_false] at e3
            obtain ⟨-, rfl⟩ := e3
            refine ⟨hbl fun hx => ?_, ?_⟩
            · obtain ⟨tk', -, -, h6, -⟩ := k2 hx
              rw [hh] at h6; cases h6
            · exact ⟨vac, vac, k5⟩
          | true =>
            simp only [hh, if_true] at e3
            obtain ⟨hk, -, h6, h7⟩ := e3
            obtain ⟨g1, g2, g3⟩ := (hren .tail _ _ _ hh).1 hk h6
            have hns : (RTree.mk d ms kids).rear ≠ .stuck := fun h => g2 (k5.2 h)
            refine ⟨hbl fun hx => ?_, ?_⟩
            · obtain ⟨tk', -, -, -, -, h8⟩ := k2 hx
              exact hns h8
            · refine ⟨vac, vac, ?_⟩
              have hm1 := (gtarget_inv h3).marks
              have : t' = t1.addMark (hk, sourceTree d hd.attrs kids) := by
                obtain ⟨d1, m1, ks1⟩ := t1
                obtain ⟨d2, m2, ks2⟩ := t'
                simp only [RTree.data_mk, RTree.kids_mk, RTree.marks_mk] at e1 e2 h7
                simp [RTree.addMark, e1, e2, h7]
              rw [this, rear_addMark_hook]
              exact ⟨fun h => absurd h (g3 _), fun h => absurd h hns⟩
        · rw [if_neg hc] at e3
          obtain ⟨rfl, -⟩ := e3
          refine ⟨hbl fun hx => ?_, ?_⟩
          · obtain ⟨tk', h5, h6, -, h7, -⟩ := k2 hx
            rw [htl] at h5
            obtain rfl := Option.some.inj h5
            exact hc ⟨h6, h7⟩
          · exact ⟨vac, vac, k5⟩

theorem gwalkList_attach {env : Env} {s : Settings} (hn : s.bindings.keys.Nodup) :
    ∀ (ts : List RTree) ⦃ctx : Ctx⦄ ⦃up0 : List Data⦄ (c : Counter),
    (∀ (i : Nat) k, ts[i]? = some k → ∀ p n, k.sub p = some n → n.built = false) → WFList ts →
    Agrees env s up0 ctx →
    (∀ k : RTree, k.data.edge.visit = true → reached env s (k.data :: up0) = true) →
    (∀ (i : Nat) k, ts[i]? = some k → AllInOrder env s k up0) →
    (∀ e, gwalkList env ctx ts c = .error e → ∃ (i : Nat) (k : RTree), ts[i]? = some k ∧ BlockedIn env s k up0) ∧
    (∀ ts' c', gwalkList env ctx ts c = .ok (ts', c') →
      (∀ (i : Nat) k, ts[i]? = some k → ¬ BlockedIn env s k up0) ∧ List.Forall₂ Looks ts ts')
  | [], ctx, up0, c, hsrc, hwf, ha, hr, hord => by
    simp only [gwalkList]
    refine ⟨fun e h => (W.pure_err h).elim, fun ts' c' h => ?_⟩
    obtain ⟨rfl, rfl⟩ := W.pure_ok h
    exact ⟨by simp, .nil⟩
  | t :: ts, ctx, up0, c, hsrc, hwf, ha, hr, hord => by
    have h1 := gwalk_attach hn t c (hsrc 0 t rfl) hwf.1 ha (hr t) (hord 0 t rfl)
    have h2 := fun c => gwalkList_attach hn ts c (fun i k hk => hsrc (i + 1) k (by simpa using hk)) hwf.2 ha hr
      (fun i k hk => hord (i + 1) k (by simpa using hk))
    simp only [gwalkList]
    constructor
    · intro e h
      rcases W.bind_err h with h | ⟨t', c1, -, h⟩
      · exact ⟨0, t, rfl, h1.1 e h⟩
      · rcases W.bind_err h with h | ⟨ts', c2, -, h⟩
        · obtain ⟨i, k, hk, hs⟩ := (h2 c1).1 e h
          exact ⟨i + 1, k, by simpa using hk, hs⟩
        · exact (W.pure_err h).elim
    · intro ts' c' h
      obtain ⟨t', c1, h3, h⟩ := W.bind_ok h
      obtain ⟨ts2, c2, h4, h⟩ := W.bind_ok h
      obtain ⟨rfl, rfl⟩ := W.pure_ok h
      obtain ⟨h5, h6⟩ := h1.2 _ _ h3
      obtain ⟨h7, h8⟩ := (h2 c1).2 _ _ h4
      refine ⟨fun i k hk => ?_, .cons h6 h8⟩
      cases i with
      | zero => simp at hk; subst hk; exact h5
      | succ i => exact h7 i k (by simpa using hk)

end

end Hooq
