import Verif.Spec.Count
import Verif.Proof.Nodes

/-!
# The counter follows the order of completion
-/

namespace Hooq

theorem countUp_get (c : Counter) (k k' : Kind) :
    (c.countUp k).get k' = c.get k' + if k = k' then 1 else 0 := by
  cases k <;> cases k' <;> simp [Counter.countUp, Counter.get]

/-- The positions `L` took the numbers after those of `c`, in order. -/
def Numbered (k : Kind) (c c' : Counter) (L : List (List Nat)) (H : List Nat → List HookData) : Prop :=
  c'.get k = c.get k + L.length ∧
    ∀ (j : Nat) p, L[j]? = some p → ∀ hk ∈ H p, hk.count = c.get k + j + 1

theorem Numbered.append {k : Kind} {c c1 c2 : Counter} {L1 L2 : List (List Nat)}
    {H : List Nat → List HookData} (h1 : Numbered k c c1 L1 H) (h2 : Numbered k c1 c2 L2 H) :
    Numbered k c c2 (L1 ++ L2) H := by
  obtain ⟨a1, a2⟩ := h1
  obtain ⟨b1, b2⟩ := h2
  refine ⟨by rw [b1, a1, List.length_append]; omega, fun j p hj hk hm => ?_⟩
  rw [List.getElem?_append] at hj
  split at hj
  · exact a2 j p hj hk hm
  · rw [b2 _ p hj hk hm, a1]; omega

theorem Numbered.map {k : Kind} {c c' : Counter} {L : List (List Nat)} {H H' : List Nat → List HookData}
    (n : Nat) (h : Numbered k c c' L H) (hH : ∀ p ∈ L, H' (n :: p) = H p) :
    Numbered k c c' (L.map (n :: ·)) H' := by
  refine ⟨by simpa using h.1, fun j p hj hk hm => ?_⟩
  simp only [List.getElem?_map, Option.map_eq_some_iff] at hj
  obtain ⟨q, hq, rfl⟩ := hj
  rw [hH q (List.mem_of_getElem? hq)] at hm
  exact h.2 j q hq hk hm

theorem Numbered.nil {k : Kind} {c c' : Counter} {H : List Nat → List HookData}
    (h : c'.get k = c.get k) : Numbered k c c' [] H := ⟨by simp [h], by simp⟩

theorem numbered_unreached {env : Env} {s : Settings} {acc : List Data} {t : RTree}
    (h : reached env s (t.data :: acc) = false) (t' : RTree) (k : Kind) (p : List Nat) :
    numbered env s acc t t' k p = false := by
  simp only [numbered]
  split
  · rename_i d up n' h1 h2
    obtain ⟨l, hl⟩ := upFrom_suffix h1
    have : reached env s (d :: up) = false := by
      rw [hl]
      cases hh : reached env s (l ++ t.data :: acc) with
      | false => rfl
      | true => rw [reached_suffix _ _ hh] at h; simp at h
    simp [this]
  · rfl

theorem numbered_cons {env : Env} {s : Settings} {acc : List Data} {d : Data}
    {ms : List (HookData × RTree)} {ks : List RTree} {t' : RTree} {kd : Kind} {i : Nat} {k k' : RTree}
    (h1 : ks[i]? = some k) (h2 : t'.kids[i]? = some k') (p : List Nat) :
    numbered env s acc (.mk d ms ks) t' kd (i :: p) = numbered env s (d :: acc) k k' kd p := by
  obtain ⟨d', ms', ks'⟩ := t'
  simp only [RTree.kids_mk] at h2
  simp only [numbered, RTree.upFrom, RTree.sub, h1, h2]

theorem sub_addMark (m : HookData × RTree) (t : RTree) (p : List Nat) :
    (t.addMark m).sub p = if p = [] then some (t.addMark m) else t.sub p := by
  obtain ⟨d, ms, ks⟩ := t
  cases p with
  | nil => rfl
  | cons i p => simp [RTree.addMark, RTree.sub]

theorem numbered_addMark {env : Env} {s : Settings} {acc : List Data} {t t' : RTree}
    (m : HookData × RTree) (kd : Kind) (p : List Nat) :
    numbered env s acc t (t'.addMark m) kd p = numbered env s acc t t' kd p := by
  simp only [numbered, sub_addMark]
  by_cases hp : p = []
  · subst hp
    obtain ⟨d, ms, ks⟩ := t'
    simp only [RTree.addMark, RTree.sub, if_true]
    cases RTree.upFrom acc t [] with
    | none => rfl
    | some l => cases l <;> rfl
  · simp [hp]

theorem hooksOf_addMark {t' : RTree} {m : HookData × RTree} {kd : Kind} (hm : m.1.kind ≠ .tail)
    (p : List Nat) : hooksOf (t'.addMark m) kd p = hooksOf t' kd p := by
  obtain ⟨d, ms, ks⟩ := t'
  simp only [hooksOf, sub_addMark]
  cases kd with
  | question | ret => simp
  | tail =>
    by_cases hp : p = []
    · subst hp
      simp [RTree.addMark, RTree.sub, RTree.hooks, hm]
    · simp [hp]

theorem hooksOf_cons {d' : Data} {ms' : List (HookData × RTree)} {ks' : List RTree} {i : Nat} {k' : RTree}
    (h : ks'[i]? = some k') (kd : Kind) (p : List Nat) :
    hooksOf (.mk d' ms' ks') kd (i :: p) = hooksOf k' kd p := by
  cases kd <;> simp [hooksOf, RTree.sub, h]

theorem filter_none {P : List Nat → Bool} {L : List (List Nat)} (h : ∀ p ∈ L, P p = false) :
    L.filter P = [] := by
  rw [List.filter_eq_nil_iff]; intro p hp; simp [h p hp]

theorem postorderFrom_mem {n : Nat} {ks : List RTree} {p : List Nat} (h : p ∈ postorderFrom n ks) :
    ∃ i q k, p = (n + i) :: q ∧ ks[i]? = some k ∧ q ∈ k.postorder := by
  induction ks generalizing n with
  | nil => simp [postorderFrom] at h
  | cons k ks ih =>
    simp only [postorderFrom, List.mem_append, List.mem_map] at h
    rcases h with ⟨q, hq, rfl⟩ | h
    · exact ⟨0, q, k, rfl, rfl, hq⟩
    · obtain ⟨i, q, k', rfl, h2, h3⟩ := ih h
      exact ⟨i + 1, q, k', by congr 1; omega, by simpa using h2, h3⟩

/-- The node itself, after its children. -/
theorem numbered_self {env : Env} {s : Settings} {acc : List Data} {d : Data}
    {ms : List (HookData × RTree)} {kids kids' : List RTree} {hd : Handled} {t1 t' : RTree}
    {ck ct c' : Counter} (hwf : (RTree.mk d ms kids).WF)
    (hr : reached env s (d :: acc) = true) (ha : Agrees env s (d :: acc) hd.ctx)
    (hs : hd.isSkipped = hd.ctx.isSkipped) (hlen : kids'.length = kids.length)
    (hmarks : (∃ q b, d.tag = .question q b) ∨ d.tag = .ret → ∀ k ∈ kids', k.marks = [])
    (h3 : gtarget env hd d kids kids' ck = .ok (t1, ct)) (h4 : gtail env hd d kids t1 ct = .ok (t', c'))
    (k : Kind) :
    Numbered k ck c' ([[]].filter (numbered env s acc (.mk d ms kids) t' k)) (hooksOf t' k) := by
  have ht := gtarget_inv h3
  obtain ⟨e1, e2, e3⟩ := gtail_inv h4
  have hskip : hd.isSkipped = skippedAt (d :: acc) := by rw [hs, ha.skipped]
  have hbare : t'.bare = t1 := by
    have := ht.marks
    obtain ⟨d1, m1, k1⟩ := t1
    simp only [RTree.data_mk, RTree.kids_mk, RTree.marks_mk] at e1 e2 this
    simp [RTree.bare, e1, e2, this]
  have hsub : t'.sub [] = some t' := by cases t'; rfl
  have hup : (RTree.mk d ms kids).upFrom acc [] = some (d :: acc) := rfl
  have hnum : numbered env s acc (.mk d ms kids) t' k [] = (!skippedAt (d :: acc) && (match k with
    | .question => (match d.tag with
      | .question _ _ => true
      | _ => false)
    | .ret => d.tag == .ret && (match t1.kids with
      | v :: _ => returnWanted env s (d :: acc) v.bare.callee
      | [] => false)
    | .tail => (match d.edge.tail with
      | some tk => d.mode != .untouched && tailWanted env s (d :: acc) tk t1.callee
      | none => false))) := by
    simp only [numbered, hup, hsub, hr, Bool.true_and, hbare, e2]
    cases k <;> rfl
  have hc1 : k ≠ .tail → c'.get k = ct.get k := by
    intro hk
    cases htl : d.edge.tail with
    | none => simp only [htl] at e3; rw [e3.2]
    | some tk =>
      simp only [htl] at e3
      split at e3
      · split at e3
        · obtain ⟨_, hc, _⟩ := e3
          rw [hc, countUp_get]; simp [Ne.symm hk]
        · rw [e3.1]; split
          · rw [countUp_get]; simp [Ne.symm hk]
          · rfl
      · rw [e3.2]
  have hsubs : t'.sub [0] = t1.kids[0]? := by
    obtain ⟨d', m', k'⟩ := t'
    simp only [RTree.kids_mk] at e2
    subst e2
    simp only [RTree.sub]
    cases t1.kids[0]? with
    | none => rfl
    | some a => cases a; rfl
  have hrule := retRule_eq ha
  have htrule := tailRule_eq ha
  cases k with
  | question =>
    have hcc := hc1 (by simp)
    cases htag : d.tag with
    | question q b =>
      have hq := ht.question q b htag
      rw [hskip] at hq
      cases hsk : skippedAt (d :: acc) with
      | true =>
        have : [[]].filter (numbered env s acc (.mk d ms kids) t' .question) = [] := by
          simp [hnum, hsk]
        rw [this]
        refine .nil ?_
        rw [hcc]
        simp only [hsk, Bool.not_true, Bool.false_and, Bool.false_eq_true, if_false] at hq
        rw [hq.1]
      | false =>
        have : [[]].filter (numbered env s acc (.mk d ms kids) t' .question) = [[]] := by
          simp [hnum, hsk, htag]
        rw [this]
        simp only [hsk, Bool.not_false, Bool.true_and, if_true] at hq
        have hct : ct = ck.countUp .question := by
          split at hq
          · obtain ⟨_, h, _⟩ := hq; exact h
          · exact hq.1
        refine ⟨by rw [hcc, hct, countUp_get]; simp, fun j p hj hk hm => ?_⟩
        cases j with
        | succ j => simp at hj
        | zero =>
          simp only [List.getElem?_cons_zero, Option.some.injEq] at hj
          subst hj
          simp only [hooksOf, List.nil_append, hsubs] at hm
          split at hq
          · obtain ⟨hk0, _, hrn, hkids, _⟩ := hq
            rw [hkids] at hm
            cases hkd : kids' with
            | nil => simp [hkd, markHead] at hm
            | cons a l =>
              have ham := hmarks (.inl ⟨q, b, htag⟩) a (by simp [hkd])
              obtain ⟨da, ma, ka⟩ := a
              simp only [RTree.marks_mk] at ham
              subst ham
              simp only [hkd, markHead, RTree.addMark, List.getElem?_cons_zero, RTree.hooks,
                RTree.marks_mk, List.nil_append, List.map_cons, List.map_nil, List.mem_filter,
                List.mem_singleton] at hm
              rw [hm.1, (render_kind hrn).2.2.1, hct, countUp_get]
              simp
          · rw [hq.2.1] at hm
            cases hkd : kids' with
            | nil => simp [hkd] at hm
            | cons a l =>
              have ham := hmarks (.inl ⟨q, b, htag⟩) a (by simp [hkd])
              simp [hkd, RTree.hooks, ham] at hm
    | ret =>
      have : [[]].filter (numbered env s acc (.mk d ms kids) t' .question) = [] := by simp [hnum, htag]
      rw [this]
      refine .nil ?_
      rw [hcc]
      have := (ht.ret htag).2.2
      simp only [hskip] at this
      split at this
      · rw [this.2]
      · split at this
        · split at this
          · obtain ⟨_, h, _⟩ := this; rw [h, countUp_get]; simp
          · rw [this.1]; split
            · rw [countUp_get]; simp
            · rfl
        · rw [this.2]
    | call | path _ | mac | other _ =>
      have : [[]].filter (numbered env s acc (.mk d ms kids) t' .question) = [] := by simp [hnum, htag]
      rw [this]
      refine .nil ?_
      rw [hcc, (ht.other (by simp [htag]) (by simp [htag])).2.2.2]
  | ret =>
    have hcc := hc1 (by simp)
    cases htag : d.tag with
    | ret =>
      have hq := (ht.ret htag).2.2
      simp only [hskip] at hq
      clear hlen h3
      cases kids' with
      | nil =>
        have : [[]].filter (numbered env s acc (.mk d ms kids) t' .ret) = [] := by
          simp [hnum, hq.1]
        rw [this]
        exact .nil (by rw [hcc, hq.2])
      | cons a l =>
        simp only [hrule] at hq
        have ham := hmarks (.inr htag) a (by simp)
        have hab : a.bare = a := by cases a; simp only [RTree.marks_mk] at ham; subst ham; rfl
        have habm : ∀ m, (a.addMark m).bare = a := by
          intro m; cases a; simp only [RTree.marks_mk] at ham; subst ham; rfl
        have hhead : ∃ v l', t1.kids = v :: l' ∧ v.bare = a := by
          split at hq
          · split at hq
            · obtain ⟨hk0, _, _, hkids⟩ := hq
              exact ⟨_, _, by rw [hkids]; rfl, habm _⟩
            · exact ⟨a, l, hq.2, hab⟩
          · exact ⟨a, l, hq.1, hab⟩
        obtain ⟨v, l', hv1, hv2⟩ := hhead
        have hnum' : numbered env s acc (.mk d ms kids) t' .ret [] =
            (!skippedAt (d :: acc) && returnWanted env s (d :: acc) a.callee) := by
          rw [hnum]; simp only [htag, hv1, hv2]; simp
        cases hwant : returnWanted env s (d :: acc) a.callee with
        | false =>
          have : [[]].filter (numbered env s acc (.mk d ms kids) t' .ret) = [] := by
            simp [hnum', hwant]
          rw [this]
          simp only [hwant, Bool.false_eq_true, if_false] at hq
          exact .nil (by rw [hcc, hq.2])
        | true =>
          simp only [hwant, if_true] at hq
          cases hsk : skippedAt (d :: acc) with
          | true =>
            have : [[]].filter (numbered env s acc (.mk d ms kids) t' .ret) = [] := by
              simp [hnum', hsk]
            rw [this]
            simp only [hsk, Bool.not_true, Bool.false_and, Bool.false_eq_true, if_false] at hq
            exact .nil (by rw [hcc, hq.1])
          | false =>
            have : [[]].filter (numbered env s acc (.mk d ms kids) t' .ret) = [[]] := by
              simp [hnum', hsk, hwant]
            rw [this]
            simp only [hsk, Bool.not_false, Bool.true_and, if_true] at hq
            have hct : ct = ck.countUp .ret := by
              split at hq
              · obtain ⟨_, h, _⟩ := hq; exact h
              · exact hq.1
            refine ⟨by rw [hcc, hct, countUp_get]; simp, fun j p hj hk hm => ?_⟩
            cases j with
            | succ j => simp at hj
            | zero =>
              simp only [List.getElem?_cons_zero, Option.some.injEq] at hj
              subst hj
              simp only [hooksOf, List.nil_append, hsubs] at hm
              split at hq
              · obtain ⟨hk0, _, hrn, hkids⟩ := hq
                rw [hkids] at hm
                obtain ⟨da, ma, ka⟩ := a
                simp only [RTree.marks_mk] at ham
                subst ham
                simp only [markHead, RTree.addMark, List.getElem?_cons_zero, RTree.hooks,
                  RTree.marks_mk, List.nil_append, List.map_cons, List.map_nil, List.mem_filter,
                  List.mem_singleton] at hm
                rw [hm.1, (render_kind hrn).2.2.1, hct, countUp_get]
                simp
              · rw [hq.2] at hm
                simp [RTree.hooks, ham] at hm
    | question q b =>
      have : [[]].filter (numbered env s acc (.mk d ms kids) t' .ret) = [] := by simp [hnum, htag]
      rw [this]
      refine .nil ?_
      rw [hcc]
      have := ht.question q b htag
      rw [hskip] at this
      split at this
      · obtain ⟨_, h, _⟩ := this; rw [h, countUp_get]; simp
      · rw [this.1]; split
        · rw [countUp_get]; simp
        · rfl
    | call | path _ | mac | other _ =>
      have : [[]].filter (numbered env s acc (.mk d ms kids) t' .ret) = [] := by simp [hnum, htag]
      rw [this]
      refine .nil ?_
      rw [hcc, (ht.other (by simp [htag]) (by simp [htag])).2.2.2]
  | tail =>
    have hct : ct.get .tail = ck.get .tail := by
      cases htag : d.tag with
      | question q b =>
        have := ht.question q b htag
        rw [hskip] at this
        split at this
        · obtain ⟨_, h, _⟩ := this; rw [h, countUp_get]; simp
        · rw [this.1]; split
          · rw [countUp_get]; simp
          · rfl
      | ret =>
        have := (ht.ret htag).2.2
        simp only [hskip] at this
        split at this
        · rw [this.2]
        · split at this
          · split at this
            · obtain ⟨_, h, _⟩ := this; rw [h, countUp_get]; simp
            · rw [this.1]; split
              · rw [countUp_get]; simp
              · rfl
          · rw [this.2]
      | call | path _ | mac | other _ =>
        rw [(ht.other (by simp [htag]) (by simp [htag])).2.2.2]
    have hm1 := ht.marks
    cases htl : d.edge.tail with
    | none =>
      simp only [htl] at e3
      have : [[]].filter (numbered env s acc (.mk d ms kids) t' .tail) = [] := by simp [hnum, htl]
      rw [this]
      exact .nil (by rw [e3.2, hct])
    | some tk =>
      simp only [htl, htrule, hskip] at e3
      by_cases hw : d.mode ≠ .untouched ∧ tailWanted env s (d :: acc) tk t1.callee = true
      · rw [if_pos hw] at e3
        cases hsk : skippedAt (d :: acc) with
        | true =>
          have : [[]].filter (numbered env s acc (.mk d ms kids) t' .tail) = [] := by
            simp [hnum, hsk]
          rw [this]
          simp only [hsk, Bool.not_true, Bool.false_and, Bool.false_eq_true, if_false] at e3
          exact .nil (by rw [e3.1, hct])
        | false =>
          have : [[]].filter (numbered env s acc (.mk d ms kids) t' .tail) = [[]] := by
            simp [hnum, hsk, htl, hw.1, hw.2]
          rw [this]
          simp only [hsk, Bool.not_false, Bool.true_and, if_true] at e3
          have hcc : c' = ct.countUp .tail := by
            split at e3
            · obtain ⟨_, h, _⟩ := e3; exact h
            · exact e3.1
          refine ⟨by rw [hcc, countUp_get, hct]; simp, fun j p hj hk hm => ?_⟩
          cases j with
          | succ j => simp at hj
          | zero =>
            simp only [List.getElem?_cons_zero, Option.some.injEq] at hj
            subst hj
            simp only [hooksOf, hsub, RTree.hooks, List.mem_filter, List.mem_map] at hm
            obtain ⟨⟨m, hm, rfl⟩, -⟩ := hm
            split at e3
            · obtain ⟨hk0, _, hrn, hms⟩ := e3
              rw [hms, hm1, List.nil_append, List.mem_singleton] at hm
              rw [hm]
              simp only
              rw [(render_kind hrn).2.2.1, hcc, countUp_get, hct]
              simp
            · rw [e3.2, hm1] at hm; simp at hm
      · rw [if_neg hw] at e3
        have : [[]].filter (numbered env s acc (.mk d ms kids) t' .tail) = [] := by
          rw [List.filter_eq_nil_iff]
          intro p hp
          simp only [List.mem_singleton] at hp
          subst hp
          rw [hnum]
          simp only [htl]
          intro hh
          apply hw
          simp only [Bool.and_eq_true, bne_iff_ne] at hh
          exact hh.2
        rw [this]
        exact .nil (by rw [e3.2, hct])

mutual
theorem gwalk_numbered {env : Env} {s : Settings} : ∀ (t : RTree) {t' : RTree} {ctx : Ctx}
    {acc : List Data} {c c' : Counter}, t.WF → Agrees env s acc ctx →
    (t.data.edge.visit = true → reached env s (t.data :: acc) = true) →
    gwalk env ctx t c = .ok (t', c') → ∀ k,
    Numbered k c c' (t.postorder.filter (numbered env s acc t t' k)) (hooksOf t' k)
  | .mk d ms kids, t', ctx, acc, c, c', hwf, ha, hr, hw, k => by
    have ihs := fun {ks' ctx acc c c'} => gwalkList_numbered (env := env) (s := s) kids (ks' := ks')
      (ctx := ctx) (acc := acc) (c := c) (c' := c') hwf.2
    cases hv : d.edge.visit with
    | false =>
      obtain ⟨rfl, rfl⟩ := gwalk_visit_false (t := .mk d ms kids) hv hw
      rw [filter_none]
      · exact .nil rfl
      · intro p _
        apply numbered_unreached
        rw [reached_cons]; simp [hv]
    | true =>
      have hre : reached env s (d :: acc) = true := hr hv
      obtain ⟨hb, hd, kids', ck, t1, ct, h1, h2, h3, h4⟩ := gwalk_inv hv hw
      have ha' := agrees_step ha h1
      obtain ⟨-, hskip⟩ := handle_kept h1
      have ht := gtarget_inv h3
      have hkids2 := target_kids ht
      have hkids : t'.kids = t1.kids := gtail_kids h4
      simp only [RTree.postorder, List.filter_append]
      have hl : kids'.length = kids.length := by
        simp only [gopen] at h2
        split at h2
        · exact (gwalkList_inv h2).1
        · rw [(W.pure_ok h2).1]
      -- the kids
      have hsame : ∀ (i : Nat) (a' : RTree), kids'[i]? = some a' → ∃ a'', t'.kids[i]? = some a'' ∧
          (∀ kd p acc a, numbered env s acc a a'' kd p = numbered env s acc a a' kd p) ∧
          (∀ kd p, hooksOf a'' kd p = hooksOf a' kd p) := by
        intro i a' hi
        rw [hkids]
        rcases hkids2 with h | ⟨hk, src, h, hkk⟩
        · exact ⟨a', by rw [h, hi], fun _ _ _ _ => rfl, fun _ _ => rfl⟩
        · rw [h, markHead_get]
          by_cases h0 : i = 0
          · subst h0
            exact ⟨a'.addMark (hk, src), by simp [hi], fun _ _ _ _ => numbered_addMark _ _ _,
              fun _ _ => hooksOf_addMark hkk _⟩
          · exact ⟨a', by simp [h0, hi], fun _ _ _ _ => rfl, fun _ _ => rfl⟩
      have hN : Numbered k c ck ((postorderFrom 0 kids).filter (numbered env s acc (.mk d ms kids) t' k))
          (hooksOf t' k) := by
        have hroute : ∀ (i : Nat) a a', kids[i]? = some a → kids'[i]? = some a' → ∀ p,
            numbered env s acc (.mk d ms kids) t' k ((0 + i) :: p) = numbered env s (d :: acc) a a' k p ∧
            hooksOf t' k ((0 + i) :: p) = hooksOf a' k p := by
          intro i a a' hi hi' p
          obtain ⟨a'', g1, g2, g3⟩ := hsame i a' hi'
          rw [Nat.zero_add]
          refine ⟨by rw [numbered_cons hi g1, g2], ?_⟩
          obtain ⟨d', m', k'⟩ := t'
          rw [hooksOf_cons (by simpa using g1), g3]
        cases ho : d.opens hd.ctx with
        | true =>
          rw [ho] at h2
          simp only [gopen, if_true] at h2
          have hent : ∀ a ∈ kids, a.data.edge.visit = true → reached env s (a.data :: d :: acc) = true := by
            intro a _ hva
            rw [reached_cons, hva, hre]
            simp only [Data.opens] at ho
            split at ho
            · rename_i hm
              rw [ha'.hookInMacros] at ho
              simp [ho]
            · rename_i hm
              simp [bne, beq_eq_false_iff_ne.2 (by simpa using hm)]
          exact ihs ha' hent h2 k 0 _ _ hroute
        | false =>
          rw [ho] at h2
          simp only [gopen, Bool.false_eq_true, if_false] at h2
          obtain ⟨rfl, rfl⟩ := W.pure_ok h2
          have hmac : d.tag = .mac ∧ macrosAt env s (d :: acc) = false := by
            simp only [Data.opens] at ho
            split at ho
            · rename_i hm; rw [ha'.hookInMacros] at ho; exact ⟨hm, ho⟩
            · simp at ho
          rw [filter_none]
          · exact .nil rfl
          · intro p hp
            obtain ⟨i, q, a, rfl, hi, -⟩ := postorderFrom_mem hp
            rw [(hroute i a a hi hi q).1]
            apply numbered_unreached
            rw [reached_cons]
            simp [hmac]
      refine hN.append ?_
      refine numbered_self hwf hre ha' hskip hl ?_ h3 h4 k
      -- operands carry no hooks before their own target is processed
      intro hq a hka
      have hopen : d.opens hd.ctx = true := by
        rcases hq with ⟨q, b, hq⟩ | hq <;> simp [Data.opens, hq]
      rw [hopen] at h2
      simp only [gopen, if_true] at h2
      obtain ⟨i, hi⟩ := List.mem_iff_getElem?.1 hka
      have hik : ∃ k0, kids[i]? = some k0 := by
        have := (List.getElem?_eq_some_iff.1 hi).1
        exact ⟨kids[i]'(by omega), List.getElem?_eq_getElem (by omega)⟩
      obtain ⟨k0, hk0⟩ := hik
      obtain ⟨k1, ci, ci', g1, g2⟩ := (gwalkList_inv h2).2 i k0 hk0
      rw [hi] at g1
      obtain rfl := Option.some.inj g1
      have hedge : k0.data.edge = {} := by
        have hn := hwf.1
        rcases hq with ⟨q, b, hq⟩ | hq
        · simp only [nodeOk, hq] at hn
          obtain ⟨⟨k2, rfl, he⟩, -⟩ := hn
          cases i with
          | zero => simp at hk0; rw [← hk0]; exact he
          | succ i => simp at hk0
        · simp only [nodeOk, hq] at hn
          rcases hn with rfl | ⟨k2, rfl, he⟩
          · simp at hk0
          · cases i with
            | zero => simp at hk0; rw [← hk0]; exact he
            | succ i => simp at hk0
      exact gwalk_marks (by rw [hedge]) (by rw [hedge]) g2
theorem gwalkList_numbered {env : Env} {s : Settings} : ∀ (ks : List RTree) {ks' : List RTree} {ctx : Ctx}
    {acc : List Data} {c c' : Counter}, WFList ks → Agrees env s acc ctx →
    (∀ a ∈ ks, a.data.edge.visit = true → reached env s (a.data :: acc) = true) →
    gwalkList env ctx ks c = .ok (ks', c') → ∀ k n (P : List Nat → Bool) (H : List Nat → List HookData),
    (∀ (i : Nat) a a', ks[i]? = some a → ks'[i]? = some a' → ∀ p,
      P ((n + i) :: p) = numbered env s acc a a' k p ∧ H ((n + i) :: p) = hooksOf a' k p) →
    Numbered k c c' ((postorderFrom n ks).filter P) H
  | [], ks', ctx, acc, c, c', _, _, _, hw, k, n, P, H, _ => by
    simp only [gwalkList] at hw
    obtain ⟨rfl, rfl⟩ := W.pure_ok hw
    exact .nil rfl
  | t :: ts, ks', ctx, acc, c, c', hwf, ha, hr, hw, k, n, P, H, hPH => by
    simp only [gwalkList] at hw
    obtain ⟨t', c1, h1, hw⟩ := W.bind_ok hw
    obtain ⟨ts', c2, h2, hw⟩ := W.bind_ok hw
    obtain ⟨rfl, rfl⟩ := W.pure_ok hw
    simp only [postorderFrom, List.filter_append]
    have h0 := gwalk_numbered t hwf.1 ha (hr t (by simp)) h1 k
    have hhead := hPH 0 t t' rfl rfl
    refine Numbered.append (c1 := c1) ?_ ?_
    · have : (t.postorder.map (n :: ·)).filter P
          = (t.postorder.filter (numbered env s acc t t' k)).map (n :: ·) := by
        rw [List.filter_map]
        congr 1
        apply List.filter_congr
        intro p _
        exact (hhead p).1
      rw [this]
      exact h0.map n fun p _ => (hhead p).2
    · refine gwalkList_numbered ts hwf.2 ha (fun a h => hr a (by simp [h])) h2 k (n + 1) P H ?_
      intro i a a' hi hi' p
      have := hPH (i + 1) a a' (by simpa using hi) (by simpa using hi') p
      rw [show n + 1 + i = n + (i + 1) by omega]
      exact this
end

end Hooq
