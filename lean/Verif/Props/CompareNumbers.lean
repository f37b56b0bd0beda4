import Verif.Props.CompareAttr
import Verif.Props.CompareCount

/-!
# The numbers of the hooks under other methods and bindings anywhere (C108)
-/

namespace Hooq

mutual
theorem RTree.Akin.postorder : ∀ {t t' : RTree}, t.Akin t' → t.postorder = t'.postorder
  | .mk d ms ks, .mk e ns ls, h => by
    simp only [RTree.Akin] at h
    simp only [RTree.postorder, AkinList.postorder 0 h.2]
theorem AkinList.postorder : ∀ (n : Nat) {ks ls : List RTree}, AkinList ks ls → postorderFrom n ks = postorderFrom n ls
  | _, [], [], _ => rfl
  | n, k :: ks, l :: ls, h => by
    simp only [AkinList] at h
    simp only [postorderFrom, RTree.Akin.postorder h.1, AkinList.postorder (n + 1) h.2]
  | _, [], _ :: _, h => by simp [AkinList] at h
  | _, _ :: _, [], h => by simp [AkinList] at h
end

/-- If the same targets take numbers, hooks at the same place have the same number. -/
theorem numbers_akin {env : Env} {args₁ args₂ : List Meta} {s₁ s₂ : Settings} {i j i' j' : Item}
    {uses₁ uses₂ : List Path} (hs₁ : rootSettings env args₁ = .ok s₁) (hs₂ : rootSettings env args₂ = .ok s₂)
    (hb₁ : s₁.bindings.keys.Nodup) (hb₂ : s₂.bindings.keys.Nodup)
    (h₁ : hooqImpls env args₁ i = .ok (uses₁, i')) (h₂ : hooqImpls env args₂ j = .ok (uses₂, j'))
    (hi : i.IsSource) (hj : j.IsSource) {p : List Nat} {k : Kind} {a b : Nat}
    (hn : numberedTargets env s₁ i i' k = numberedTargets env s₂ j j' k)
    (ha : i'.Numbered p k a) (hb : j'.Numbered p k b) : a = b := by
  obtain ⟨n₁, e₁, m₁, f₁, rfl, rfl⟩ := ha
  obtain ⟨n₂, e₂, m₂, f₂, hk, rfl⟩ := hb
  obtain ⟨d1, up1, hu⟩ := chain_of_output hs₁ hb₁ h₁ p n₁ e₁
  obtain ⟨d2, up2, hv⟩ := chain_of_output hs₂ hb₂ h₂ p n₂ e₂
  have r₁ := (HookOn.fact hs₁ hb₁ h₁ hi hu ⟨n₁, e₁, m₁, f₁, rfl⟩).1
  have r₂ := (HookOn.fact hs₂ hb₂ h₂ hj hv ⟨n₂, e₂, m₂, f₂, rfl⟩).1
  obtain ⟨q₁, a1, b1, c1⟩ := C11_hook_is_numbered hs₁ hb₁ h₁ hu r₁ e₁ f₁
  obtain ⟨q₂, a2, b2, c2⟩ := C11_hook_is_numbered hs₂ hb₂ h₂ hv r₂ e₂ f₂
  rw [hk] at a2 b2 c2
  have hq : q₁ = q₂ := by
    rw [c1] at c2
    cases hkk : m₁.1.kind <;> rw [hkk] at c2 <;> simpa using c2
  subst hq
  obtain ⟨l, f⟩ := List.mem_iff_getElem?.1 a1
  rw [C11_numbers hs₁ h₁ _ f _ b1, C11_numbers hs₂ h₂ _ (hn ▸ f) _ b2]

theorem returned_kid {env : Env} {args : List Meta} {s : Settings} {i i' : Item} {uses : List Path}
    (hs : rootSettings env args = .ok s) (hb : s.bindings.keys.Nodup) (h : hooqImpls env args i = .ok (uses, i'))
    (hq : i'.QuestionsStay) {p : List Nat} {d : Data} {up : List Data} (hu : i.chain p = some (d :: up))
    (ht : d.tag = .ret) (hr : reached env s (d :: up) = true) {n x : RTree} (hn : i.tree.sub p = some n)
    (hx : i'.tree.sub p = some x) :
    (n.kids = [] ∧ x.kids = []) ∨ ∃ k0 kx, n.kids = [k0] ∧ x.kids = [kx] ∧ kx.bare.callee = i.calls (p ++ [0]) := by
  have w := C02_return_placement hs hb h hu ht
  rw [if_pos hr] at w
  obtain ⟨n1, x', u1, u2, -, u3⟩ := w
  obtain rfl := Option.some.inj (hx.symm.trans u2)
  obtain rfl := Option.some.inj (hn.symm.trans u1)
  rcases u3 with u3 | ⟨k0, kx, u3, u4, -⟩
  · exact .inl u3
  · refine .inr ⟨k0, kx, u3, u4, ?_⟩
    have hk : i.chain (p ++ [0]) = some (k0.data :: d :: up) := upFrom_kid hu hn (by rw [u3]; rfl)
    have he : k0.data.edge = {} := by
      obtain ⟨m, upm, g1, g2⟩ := upFrom_sub hu
      obtain rfl := Option.some.inj (hn.symm.trans g1)
      obtain ⟨rfl, rfl⟩ := List.cons.inj g2
      have hwf := WF_sub (wfItem {} i) hn
      obtain ⟨dn, ms, ks⟩ := n
      simp only [RTree.data_mk, RTree.kids_mk] at ht u3
      subst u3
      simp only [RTree.WF, nodeOk, ht] at hwf
      simpa using hwf.1
    have sx : i'.tree.sub (p ++ [0]) = some kx := by
      rw [sub_append hx]
      obtain ⟨dx, mx, _⟩ := x
      rw [RTree.kids_mk] at u4
      subst u4
      obtain ⟨_, _, _⟩ := kx
      rfl
    refine callee_calls hs hb h hq hk ?_ sx
    rw [reached_cons, hr, he]
    simp [ht]

/-- C108: attributes that set methods or bindings, or are none of hooq, change no number of a hook either. -/
theorem C108_numbers {env : Env} {args : List Meta} {s : Settings} {i j i' j' : Item}
    {uses₁ uses₂ : List Path} (hs : rootSettings env args = .ok s) (hb : s.bindings.keys.Nodup)
    (h₁ : hooqImpls env args i = .ok (uses₁, i')) (h₂ : hooqImpls env args j = .ok (uses₂, j'))
    (hij : i.tree.Akin j.tree) (hi : i.IsSource) (hj : j.IsSource) (hq₁ : i'.QuestionsStay) (hq₂ : j'.QuestionsStay)
    (p : List Nat) (k : Kind) (c : Nat) : i'.Numbered p k c ↔ j'.Numbered p k c := by
  have key : numberedTargets env s i i' k = numberedTargets env s j j' k := by
    unfold numberedTargets
    rw [← hij.postorder]
    refine List.filter_congr fun q _ => ?_
    unfold numbered
    cases hc : i.tree.upFrom [] q with
    | none =>
      cases hc2 : j.tree.upFrom [] q with
      | none => rfl
      | some v =>
        obtain ⟨u, hu, -⟩ := hij.symm.upFrom (a := []) (b := []) trivial hc2
        rw [hc] at hu; simp at hu
    | some u =>
      obtain ⟨v, hv, ha⟩ := hij.upFrom (a := []) (b := []) trivial hc
      rw [hv]
      cases u with
      | nil => cases v with
        | nil => rfl
        | cons => simp [AkinUp] at ha
      | cons d up => cases v with
        | nil => simp [AkinUp] at ha
        | cons e vp =>
          obtain ⟨x, hx, -⟩ := C05_question_kept_at hs hb h₁ hc
          obtain ⟨y, hy, -⟩ := C05_question_kept_at hs hb h₂ hv
          have hsk : skippedAt (d :: up) = skippedAt (e :: vp) := ha.skipped false
          simp only [hx, hy, ha.reached env s, hsk]
          cases hr : reached env s (e :: vp) with
          | false => simp
          | true =>
            have hr₁ : reached env s (d :: up) = true := (ha.reached env s).trans hr
            cases k with
            | question => simp only [ha.1.tag]
            | tail =>
              have : x.bare.callee = y.bare.callee :=
                (callee_calls hs hb h₁ hq₁ hc hr₁ hx).trans
                  ((hij.calls q).trans (callee_calls hs hb h₂ hq₂ hv hr hy).symm)
              simp only [this, ha.1.edge, ha.1.mode, ha.tailWanted env s]
            | ret =>
              by_cases ht : d.tag = .ret
              · have ht2 : e.tag = .ret := ha.1.tag ▸ ht
                obtain ⟨n, upn, g1, -⟩ := upFrom_sub hc
                obtain ⟨m, g2, hnm⟩ := hij.sub g1
                have w₁ := returned_kid hs hb h₁ hq₁ hc ht hr₁ g1 hx
                have w₂ := returned_kid hs hb h₂ hq₂ hv ht2 hr g2 hy
                have hlen : n.kids = [] ↔ m.kids = [] := by
                  obtain ⟨dn, _, ks⟩ := n
                  obtain ⟨dm, _, ls⟩ := m
                  simp only [RTree.Akin] at hnm
                  cases ks <;> cases ls <;> simp_all [AkinList]
                rcases w₁ with ⟨u3, u4⟩ | ⟨k0, kx, u3, u4, u5⟩
                · rcases w₂ with ⟨-, v4⟩ | ⟨l0, ky, v3, -, -⟩
                  · simp only [u4, v4, ht, ht2]
                  · rw [hlen.1 u3] at v3; simp at v3
                · rcases w₂ with ⟨v3, -⟩ | ⟨l0, ky, -, v4, v5⟩
                  · rw [hlen.2 v3] at u3; simp at u3
                  · simp only [u4, v4, u5, v5, hij.calls (q ++ [0]), ht, ht2, ha.returnWanted env s]
              · have h1 : (d.tag == .ret) = false := by simpa using ht
                have h2 : (e.tag == .ret) = false := by rw [← ha.1.tag]; exact h1
                simp only [h1, h2, Bool.false_and]
  constructor
  · intro hc
    obtain ⟨n, g1, m, g2, g3, -⟩ := id hc
    obtain ⟨n', e1, m', e2, e3⟩ := (C108_same hs hb h₁ h₂ hij hi hj hq₁ hq₂ p k).1 ⟨n, g1, m, g2, g3⟩
    exact ⟨n', e1, m', e2, e3, (numbers_akin hs hs hb hb h₁ h₂ hi hj key hc ⟨n', e1, m', e2, e3, rfl⟩).symm⟩
  · intro hc
    obtain ⟨n, g1, m, g2, g3, -⟩ := id hc
    obtain ⟨n', e1, m', e2, e3⟩ := (C108_same hs hb h₁ h₂ hij hi hj hq₁ hq₂ p k).2 ⟨n, g1, m, g2, g3⟩
    exact ⟨n', e1, m', e2, e3, numbers_akin hs hs hb hb h₁ h₂ hi hj key ⟨n', e1, m', e2, e3, rfl⟩ hc⟩

section
open Ex
set_option maxRecDepth 10000

/-- The kinds and numbers in the sample of C108, whose hypotheses are met as shown there. -/
example : ([[], textAttrs].map fun l => [[0, 0, 0], [1, 0, 0], [2]].map fun p =>
      ((outBlocks l).tree.sub p).map fun n => n.marks.map fun m => (m.1.kind, m.1.count)) =
    [[some [(.question, 1)], some [], some [(.tail, 1)]], [some [(.question, 1)], some [], some [(.tail, 1)]]] ∧
    (outBlocks []).QuestionsStay ∧ (outBlocks textAttrs).QuestionsStay :=
  ⟨by decide +kernel, stay_of (by decide +kernel), stay_of (by decide +kernel)⟩

end

end Hooq
