import Verif.Spec.Compare
import Verif.Props.OtherNames
import Verif.Props.Presets
import Verif.Props.Watch
import Verif.Props.Second
import Verif.Props.Laws
import Verif.Props.Exact

/-!
# The places of the hooks under two flavors (C106)
-/

namespace Hooq

theorem within_getD {α : Type} {R : α → α → Prop} (hr : ∀ x, R x x) {x y : α} (h : R x y) (o : Option α) :
    R (o.getD x) (o.getD y) := by
  cases o with
  | none => exact h
  | some z => exact hr z

theorem Settings.Within.targetsAt {a b : Settings} (h : a.Within b) (env : Env) (up : List Data) (k : Kind) :
    (Hooq.targetsAt env a up).has k = true → (Hooq.targetsAt env b up).has k = true :=
  within_getD (R := fun x y : Targets => x.has k = true → y.has k = true) (fun _ => id) (h.targets k) _

theorem endsIn_mono {p : Option Path} {l l' : List String} (h : l ⊆ l') (hp : endsIn p l = true) :
    endsIn p l' = true := by
  unfold endsIn at hp ⊢
  split at hp
  · split at hp
    · exact List.contains_iff_mem.2 (h (List.contains_iff_mem.1 hp))
    · exact hp
  · exact hp

theorem Settings.Within.tailIdentsAt {a b : Settings} (h : a.Within b) (env : Env) (up : List Data) :
    Hooq.tailIdentsAt env a up ⊆ Hooq.tailIdentsAt env b up :=
  within_getD (R := fun x y : List String => x ⊆ y) (fun _ => List.Subset.refl _) h.tails _

theorem Settings.Within.resultTypesAt {a b : Settings} (h : a.Within b) (env : Env) (up : List Data) :
    Hooq.resultTypesAt env a up ⊆ Hooq.resultTypesAt env b up :=
  within_getD (R := fun x y : List String => x ⊆ y) (fun _ => List.Subset.refl _) h.types _

theorem Settings.Within.ignoreAt {a b : Settings} (h : a.Within b) (env : Env) (up : List Data) :
    Hooq.ignoreAt env b up ⊆ Hooq.ignoreAt env a up :=
  within_getD (R := fun x y : List String => x ⊆ y) (fun _ => List.Subset.refl _) h.ignored _

theorem Settings.Within.macrosAt {a b : Settings} (h : a.Within b) (env : Env) (up : List Data) :
    Hooq.macrosAt env a up = true → Hooq.macrosAt env b up = true :=
  within_getD (R := fun x y : Bool => x = true → y = true) (fun _ => id) h.macros _

theorem Settings.Within.reached {a b : Settings} (h : a.Within b) (env : Env) {up : List Data}
    (hr : Hooq.reached env a up = true) : Hooq.reached env b up = true := by
  induction up with
  | nil => rfl
  | cons d up ih =>
    rw [reached_cons] at hr ⊢
    simp only [Bool.and_eq_true] at hr ⊢
    refine ⟨⟨hr.1.1, ?_⟩, ih hr.2⟩
    have h2 := hr.1.2
    cases up with
    | nil => rfl
    | cons m up =>
      simp only [Bool.or_eq_true] at h2 ⊢
      exact h2.imp id (h.macrosAt env _)

theorem Settings.Within.hookedAt {a b : Settings} (h : a.Within b) (env : Env) {up : List Data} {k : Kind}
    (hr : Hooq.hookedAt env a up k = true) : Hooq.hookedAt env b up k = true := by
  simp only [Hooq.hookedAt, Bool.and_eq_true] at hr ⊢
  exact ⟨hr.1, h.targetsAt env up k hr.2⟩

theorem Settings.Within.resultAt {a b : Settings} (h : a.Within b) (env : Env) {up : List Data}
    (hr : Hooq.resultAt env a up = true) : Hooq.resultAt env b up = true := by
  unfold Hooq.resultAt at hr ⊢
  split at hr
  · exact endsIn_mono (h.resultTypesAt env up) hr
  · simp at hr

theorem Settings.Within.notIgnored {a b : Settings} (h : a.Within b) (env : Env) {up : List Data} {c : Option Path}
    (hr : endsIn c (Hooq.ignoreAt env a up) = false) : endsIn c (Hooq.ignoreAt env b up) = false := by
  rw [← Bool.not_eq_true] at hr ⊢
  exact fun hc => hr (endsIn_mono (h.ignoreAt env up) hc)

theorem Settings.Within.returnWanted {a b : Settings} (h : a.Within b) (env : Env) {up : List Data} {c : Option Path}
    (hr : Hooq.returnWanted env a up c = true) : Hooq.returnWanted env b up c = true := by
  simp only [Hooq.returnWanted, Bool.or_eq_true, Bool.and_eq_true, Bool.not_eq_true'] at hr ⊢
  exact hr.imp (endsIn_mono (h.tailIdentsAt env up)) fun x => ⟨h.resultAt env x.1, h.notIgnored env x.2⟩

theorem Settings.Within.tailWanted {a b : Settings} (h : a.Within b) (env : Env) {up : List Data} {tk : TailKind}
    {c : Option Path} (hr : Hooq.tailWanted env a up tk c = true) : Hooq.tailWanted env b up tk c = true := by
  simp only [Hooq.tailWanted, Bool.or_eq_true, Bool.and_eq_true, Bool.not_eq_true'] at hr ⊢
  exact hr.imp (endsIn_mono (h.tailIdentsAt env up))
    fun x => ⟨⟨x.1.1, h.resultAt env x.1.2⟩, h.notIgnored env x.2⟩

/-- The path that is called by the expression at a position of the source, if it is a call of a path. -/
def Item.calls (i : Item) (p : List Nat) : Option Path :=
  match i.tree.sub p with
  | none => none
  | some n => match n.data.tag, n.kids with
    | .call, k :: _ => (match k.data.tag with
      | .path x => some x
      | _ => none)
    | _, _ => none

theorem callee_calls {env : Env} {args : List Meta} {s : Settings} {i i' : Item}
    {uses : List Path} (hs : rootSettings env args = .ok s) (hb : s.bindings.keys.Nodup)
    (h : hooqImpls env args i = .ok (uses, i')) (hq : i'.QuestionsStay) {p : List Nat} {d : Data} {up : List Data}
    (hu : i.chain p = some (d :: up)) (hr : reached env s (d :: up) = true) {n' : RTree}
    (hn' : i'.tree.sub p = some n') : n'.bare.callee = i.calls p := by
  obtain ⟨n, upn, h1, h2⟩ := upFrom_sub hu
  obtain ⟨rfl, rfl⟩ := List.cons.inj h2
  obtain ⟨x, h3, h4⟩ := C05_question_kept_at hs hb h hu
  obtain rfl := Option.some.inj (hn'.symm.trans h3)
  have hwf := WF_sub (wfItem {} i) h1
  rw [Item.calls, h1]
  obtain ⟨d, ms, ks⟩ := n
  obtain ⟨d', ms', ks'⟩ := n'
  simp only [RTree.data_mk, RTree.kids_mk] at h4 ⊢
  have hq' := fun q => hq p _ q hn'
  simp only [RTree.data_mk] at hq'
  by_cases hc : d.tag = .call
  · simp only [hc] at h4 ⊢
    simp only [RTree.WF, nodeOk, hc] at hwf
    obtain ⟨⟨k, ks0, rfl, he⟩, -⟩ := hwf
    have hk : i.chain (p ++ [0]) = some (k.data :: d :: up) := upFrom_kid hu h1 rfl
    have hrk : reached env s (k.data :: d :: up) = true := by
      rw [RTree.data_mk] at hr
      rw [reached_cons, hr, he]
      simp [hc]
    obtain ⟨k', g1, -, g2⟩ := C19_at_most_one hs hb h hk hrk
    obtain ⟨k2, g3, g4⟩ := C05_question_kept_at hs hb h hk
    obtain rfl := Option.some.inj (g1.symm.trans g3)
    have hm : k'.marks = [] := by
      rw [List.eq_nil_iff_forall_not_mem]
      intro m hm
      have := g2 m hm
      unfold HookFact at this
      cases hkk : m.1.kind <;> simp [hkk, hc, he] at this
    have g5 : k' ∈ ks'.head? := by
      rw [sub_append hn'] at g1
      cases ks' with
      | nil => simp [RTree.sub] at g1
      | cons y ys => simp [RTree.sub] at g1; simp [g1]
    cases ks' with
    | nil => simp at g5
    | cons y ys =>
      simp at g5
      subst g5
      have hq2 := fun q => hq _ _ q g1
      obtain ⟨dk, mk, kk⟩ := y
      simp only [RTree.marks_mk] at hm
      subst hm
      simp only [RTree.data_mk] at g4 hq2
      simp only [RTree.bare, RTree.callee, RTree.data_mk, RTree.kids_mk, h4, RTree.asPathHead, RTree.asPath,
        List.map_nil, List.foldl_nil]
      cases hkt : k.data.tag <;> rw [hkt] at g4 <;> simp only at g4 <;> rw [g4] <;> simp only
      rename_i q b
      cases hbb : (b || (reached env s (k.data :: d :: up) && hookedAt env s (k.data :: d :: up) .question &&
        (methodAt env s (k.data :: d :: up)).exc)) with
      | false => rfl
      | true => rw [hbb] at g4; exact absurd g4 (hq2 q)
  · simp only [RTree.bare, RTree.callee, RTree.data_mk, RTree.kids_mk, List.map_nil, List.foldl_nil]
    cases hkt : d.tag <;> rw [hkt] at h4 <;> simp only at h4 <;> rw [h4] <;> simp only
    · rename_i q b
      cases hbb : (b || (reached env s (d :: up) && hookedAt env s (d :: up) .question &&
        (methodAt env s (d :: up)).exc)) with
      | false => rfl
      | true => rw [hbb] at h4; exact absurd h4 (hq' q)
    · exact absurd hkt hc

theorem chain_above {i : Item} {p : List Nat} {c d : Data} {up : List Data} (h : i.chain p = some (c :: d :: up)) :
    ∃ q j, p = q ++ [j] ∧ i.chain q = some (d :: up) := by
  rcases List.eq_nil_or_concat p with rfl | ⟨q, j, rfl⟩
  · rw [Item.chain] at h
    generalize i.tree = t at h
    obtain ⟨d0, ms, ks⟩ := t
    simp [RTree.upFrom] at h
  · exact ⟨q, j, List.concat_eq_append .., upFrom_snoc (by rwa [List.concat_eq_append] at h)⟩

theorem sub_kid {t n k : RTree} {q : List Nat} {j : Nat} (hn : t.sub q = some n) (hk : t.sub (q ++ [j]) = some k) :
    n.kids[j]? = some k := by
  rw [sub_append hn] at hk
  obtain ⟨d, ms, ks⟩ := n
  simp only [RTree.sub] at hk
  split at hk
  · rename_i y hy
    obtain ⟨a, b, e⟩ := y
    simp only [RTree.sub, Option.some.injEq] at hk
    rw [RTree.kids_mk, hy, hk]
  · simp at hk

/-- A hook is at a place that the macro reached. -/
theorem HookOn.fact {env : Env} {args : List Meta} {s : Settings} {i i' : Item}
    {uses : List Path} (hs : rootSettings env args = .ok s) (hb : s.bindings.keys.Nodup)
    (h : hooqImpls env args i = .ok (uses, i')) (hi : i.IsSource) {p : List Nat} {d : Data} {up : List Data} {k : Kind}
    (hu : i.chain p = some (d :: up)) (ho : i'.HookOn p k) :
    reached env s (d :: up) = true ∧ ∃ n' m, i'.tree.sub p = some n' ∧ m ∈ n'.marks ∧ m.1.kind = k ∧
      HookFact env s (d :: up) n' m.1 := by
  obtain ⟨n', h1, m, h2, h3⟩ := ho
  cases hr : reached env s (d :: up) with
  | true =>
    obtain ⟨x, g1, -, g2⟩ := C19_at_most_one hs hb h hu hr
    obtain rfl := Option.some.inj (h1.symm.trans g1)
    exact ⟨rfl, n', m, h1, h2, h3, g2 m h2⟩
  | false =>
    have := (C60_effect hs hb h).2 p d up hu
    rw [hr, if_neg (by simp)] at this
    rw [this] at h1
    have hp := hi p n' h1
    obtain ⟨a, b, e⟩ := n'
    simp only [RTree.built, Bool.or_eq_false_iff, Bool.not_eq_false', List.isEmpty_iff] at hp
    rw [RTree.marks_mk, hp.1] at h2
    simp at h2

/-- C106 for `?`: with a flavor that hooks no less, every `?` that had a hook has one. -/
theorem C106_question {env : Env} {args₁ args₂ : List Meta} {s₁ s₂ : Settings} {i i₁ i₂ : Item}
    {uses₁ uses₂ : List Path} (hs₁ : rootSettings env args₁ = .ok s₁) (hs₂ : rootSettings env args₂ = .ok s₂)
    (hb₁ : s₁.bindings.keys.Nodup) (hb₂ : s₂.bindings.keys.Nodup)
    (h₁ : hooqImpls env args₁ i = .ok (uses₁, i₁)) (h₂ : hooqImpls env args₂ i = .ok (uses₂, i₂))
    (hw : s₁.Within s₂) (hi : i.IsSource) {p : List Nat}
    (ho : i₁.HookOn p .question) : i₂.HookOn p .question := by
  obtain ⟨n0, hn0, -⟩ := id ho
  obtain ⟨d0, up0, hu⟩ := chain_of_output hs₁ hb₁ h₁ p n0 hn0
  obtain ⟨n, up, g1, g2⟩ := upFrom_sub hu
  rw [g2] at hu
  obtain ⟨hr, n', m, h3, h4, h5, h6⟩ := HookOn.fact hs₁ hb₁ h₁ hi hu ho
  cases up with
  | nil => simp [HookFact, h5] at h6
  | cons d up =>
    simp only [HookFact, h5] at h6
    obtain ⟨q, b, -, h7, h8, -⟩ := h6
    obtain ⟨p, j, rfl, hd⟩ := chain_above hu
    have hr2 := hw.reached env (reached_tail hr)
    have := C01_question_placement hs₂ hb₂ h₂ hd h7
    rw [if_pos hr2] at this
    obtain ⟨n2, k2, e1, e2, e3⟩ := this
    have hc : (!skippedAt (d :: up) && (targetsAt env s₂ (d :: up)).question) = true := hw.hookedAt env h8
    rw [if_pos hc] at e3
    obtain ⟨hk, src, e3, e4, -⟩ := e3
    obtain ⟨x, e5, -⟩ := C05_question_kept_at hs₂ hb₂ h₂ hu
    have e6 := sub_kid e1 e5
    rw [e2] at e6
    have : j = 0 := by
      cases j with
      | zero => rfl
      | succ j => simp at e6
    subst this
    simp only [List.getElem?_cons_zero, Option.some.injEq] at e6
    subst e6
    exact ⟨k2, e5, _, by rw [e3]; exact List.mem_singleton_self _, e4⟩

/-- C106: with a flavor that hooks no less, there is a hook wherever there was one, as long as no `?` is taken away.
The methods and bindings of the flavors can be any. -/
theorem C106_more {env : Env} {args₁ args₂ : List Meta} {s₁ s₂ : Settings} {i i₁ i₂ : Item}
    {uses₁ uses₂ : List Path} (hs₁ : rootSettings env args₁ = .ok s₁) (hs₂ : rootSettings env args₂ = .ok s₂)
    (hb₁ : s₁.bindings.keys.Nodup) (hb₂ : s₂.bindings.keys.Nodup)
    (h₁ : hooqImpls env args₁ i = .ok (uses₁, i₁)) (h₂ : hooqImpls env args₂ i = .ok (uses₂, i₂))
    (hw : s₁.Within s₂) (hi : i.IsSource) (hq₁ : i₁.QuestionsStay) (hq₂ : i₂.QuestionsStay)
    {p : List Nat} {k : Kind}
    (ho : i₁.HookOn p k) : i₂.HookOn p k := by
  obtain ⟨n0, hn0, -⟩ := id ho
  obtain ⟨d0, up0, hu⟩ := chain_of_output hs₁ hb₁ h₁ p n0 hn0
  obtain ⟨n, up, g1, g2⟩ := upFrom_sub hu
  rw [g2] at hu
  obtain ⟨hr, n', m, h3, h4, h5, h6⟩ := HookOn.fact hs₁ hb₁ h₁ hi hu ho
  have hr2 := hw.reached env hr
  obtain ⟨x, e5, -⟩ := C05_question_kept_at hs₂ hb₂ h₂ hu
  have hc : n'.bare.callee = x.bare.callee :=
    (callee_calls hs₁ hb₁ h₁ hq₁ hu hr h3).trans (callee_calls hs₂ hb₂ h₂ hq₂ hu hr2 e5).symm
  cases k with
  | question => exact C106_question hs₁ hs₂ hb₁ hb₂ h₁ h₂ hw hi ho
  | ret =>
    cases up with
    | nil => simp [HookFact, h5] at h6
    | cons d up =>
      simp only [HookFact, h5] at h6
      obtain ⟨-, h7, h8, -⟩ := h6
      obtain ⟨p, j, rfl, hd⟩ := chain_above hu
      obtain ⟨y, a1, a2⟩ := C56_return hs₁ hb₁ h₁ hd h7 (reached_tail hr)
      have a3 := (a2 n' (List.mem_of_getElem? (sub_kid a1 h3))).1 (List.ne_nil_of_mem h4)
      have := C02_return_placement hs₂ hb₂ h₂ hd h7
      rw [if_pos (reached_tail hr2)] at this
      obtain ⟨n0, n2, b0, b2, b1, b3⟩ := this
      have e6 := sub_kid b2 e5
      rcases b3 with ⟨-, b3⟩ | ⟨k0, k', -, b3, b4⟩
      · rw [b3] at e6; simp at e6
      · rw [b3] at e6
        have : j = 0 := by
          cases j with
          | zero => rfl
          | succ j => simp at e6
        subst this
        simp only [List.getElem?_cons_zero, Option.some.injEq] at e6
        subst e6
        have hc2 : (!skippedAt (d :: up) && (targetsAt env s₂ (d :: up)).ret &&
            returnWanted env s₂ (d :: up) k'.bare.callee) = true := by
          rw [← hc, Bool.and_eq_true]
          exact ⟨hw.hookedAt env h8, hw.returnWanted env a3.2.1⟩
        split at b4
        · obtain ⟨hk, src, b5, b6, -⟩ := b4
          exact ⟨k', e5, _, by rw [b5]; exact List.mem_singleton_self _, b6⟩
        · rename_i hc3; exact absurd hc2 hc3
  | tail =>
    have key := C03_tail_placement hs₁ hb₁ h₁ hu
    rw [if_pos hr] at key
    obtain ⟨y, a1, a2⟩ := key
    obtain rfl := Option.some.inj (h3.symm.trans a1)
    have hm : m ∈ n'.tailMarks := by simp [RTree.tailMarks, h4, h5]
    have key := C03_tail_placement hs₂ hb₂ h₂ hu
    rw [if_pos hr2] at key
    obtain ⟨z, b1, b2⟩ := key
    obtain rfl := Option.some.inj (e5.symm.trans b1)
    cases ht : n.data.edge.tail with
    | none => simp only [ht] at a2; rw [a2] at hm; simp at hm
    | some tk =>
      simp only [ht] at a2 b2
      split at a2
      · rename_i hcond
        have hw2 : tailWanted env s₂ (n.data :: up) tk x.bare.callee = true := by
          rw [← hc]
          refine hw.tailWanted env ?_
          have := hcond.2
          rw [Bool.and_eq_true] at this
          exact this.2
        have hh : hookedAt env s₂ (n.data :: up) .tail = true := by
          refine hw.hookedAt env ?_
          have := hcond.2
          rw [Bool.and_eq_true] at this
          exact this.1
        rw [if_pos ⟨hcond.1, by rw [Bool.and_eq_true]; exact ⟨hh, hw2⟩⟩] at b2
        obtain ⟨hk, src, b5, b6, -⟩ := b2
        have : (hk, src) ∈ x.tailMarks := by rw [b5]; exact List.mem_singleton_self _
        exact ⟨x, e5, _, List.mem_of_mem_filter this, b6⟩
      · rw [a2] at hm; simp at hm

/-- C106: flavors that differ only in methods, bindings and traits put their hooks in the same places. -/
theorem C106_same {env : Env} {args₁ args₂ : List Meta} {s₁ s₂ : Settings} {i i₁ i₂ : Item}
    {uses₁ uses₂ : List Path} (hs₁ : rootSettings env args₁ = .ok s₁) (hs₂ : rootSettings env args₂ = .ok s₂)
    (hb₁ : s₁.bindings.keys.Nodup) (hb₂ : s₂.bindings.keys.Nodup)
    (h₁ : hooqImpls env args₁ i = .ok (uses₁, i₁)) (h₂ : hooqImpls env args₂ i = .ok (uses₂, i₂))
    (ht : s₁.targets = s₂.targets) (hn : s₁.tailIdents = s₂.tailIdents) (hg : s₁.ignoreIdents = s₂.ignoreIdents)
    (hy : s₁.resultTypes = s₂.resultTypes) (hm : s₁.hookInMacros = s₂.hookInMacros)
    (hi : i.IsSource) (hq₁ : i₁.QuestionsStay) (hq₂ : i₂.QuestionsStay)
    (p : List Nat) (k : Kind) :
    i₁.HookOn p k ↔ i₂.HookOn p k :=
  ⟨C106_more hs₁ hs₂ hb₁ hb₂ h₁ h₂ ⟨by simp [ht], by simp [hn], by simp [hg], by simp [hy], by simp [hm]⟩ hi hq₁ hq₂,
   C106_more hs₂ hs₁ hb₂ hb₁ h₂ h₁ ⟨by simp [ht], by simp [hn], by simp [hg], by simp [hy], by simp [hm]⟩ hi hq₂ hq₁⟩

/-- No `?` is taken away if no method in force ends in `!`, such as without the feature. -/
theorem C106_stay {env : Env} {args : List Meta} {s : Settings} {i i' : Item}
    {uses : List Path} (hs : rootSettings env args = .ok s) (hb : s.bindings.keys.Nodup)
    (h : hooqImpls env args i = .ok (uses, i')) (hi : i.IsSource)
    (hx : ∀ p d up, i.chain p = some (d :: up) → (methodAt env s (d :: up)).exc = false) : i'.QuestionsStay := by
  intro p n q hn ht
  obtain ⟨d, up, hu⟩ := chain_of_output hs hb h p n hn
  obtain ⟨n', h1, h2⟩ := C05_question_kept_at hs hb h hu
  obtain rfl := Option.some.inj (hn.symm.trans h1)
  obtain ⟨m, upm, h3, h4⟩ := upFrom_sub hu
  obtain ⟨rfl, rfl⟩ := List.cons.inj h4
  have h5 := hi p m h3
  obtain ⟨d, ms, ks⟩ := m
  rw [RTree.data_mk] at h2 hu
  rw [ht] at h2
  cases hd : d.tag with
  | question q' b =>
    rw [hd] at h2
    simp only [Tag.question.injEq, hx p d up hu, Bool.and_false, Bool.or_false] at h2
    simp only [RTree.built, hd, ← h2.2, Bool.or_true, Bool.true_eq_false] at h5
  | _ => rw [hd] at h2; cases h2

/-- C106: without the feature `consume-question` no `?` is ever taken away. -/
theorem C106_feature {env : Env} {args : List Meta} {i i' : Item} {uses : List Path} (hg : Genuine env)
    (hc : env.consume = false) (h : hooqImpls env args i = .ok (uses, i')) (hi : i.IsSource) : i'.QuestionsStay := by
  obtain ⟨s, hs⟩ := rootSettings_of_ok h
  obtain ⟨hb, he⟩ := genuine_root hg hs
  exact C106_stay hs hb h hi fun _ _ _ _ => methodAt_exc hg hc (he hc) _

/-- C106 without the feature `consume-question`: nothing has to be asked of the methods. -/
theorem C106_without {env : Env} {args₁ args₂ : List Meta} {s₁ s₂ : Settings} {i i₁ i₂ : Item}
    {uses₁ uses₂ : List Path} (hg : Genuine env) (hc : env.consume = false)
    (hs₁ : rootSettings env args₁ = .ok s₁) (hs₂ : rootSettings env args₂ = .ok s₂)
    (h₁ : hooqImpls env args₁ i = .ok (uses₁, i₁)) (h₂ : hooqImpls env args₂ i = .ok (uses₂, i₂))
    (hw : s₁.Within s₂) (hi : i.IsSource) {p : List Nat} {k : Kind} (ho : i₁.HookOn p k) : i₂.HookOn p k :=
  C106_more hs₁ hs₂ (genuine_root hg hs₁).1 (genuine_root hg hs₂).1 h₁ h₂ hw hi (C106_feature hg hc h₁ hi)
    (C106_feature hg hc h₂ hi) ho

/-- C106: all built-in flavors other than `empty` put their hooks in the same places. -/
theorem C106_builtin {env : Env} {args₁ args₂ : List Meta} {s₁ s₂ : Settings} {i i₁ i₂ : Item}
    {uses₁ uses₂ : List Path} {helpers₁ helpers₂ : List TT} {doc₁ doc₂ : PresetDoc}
    (hp₁ : Builtin env args₁ helpers₁ doc₁) (hp₂ : Builtin env args₂ helpers₂ doc₂)
    (he₁ : doc₁.path ≠ ["empty"]) (he₂ : doc₂.path ≠ ["empty"])
    (hs₁ : rootSettings env args₁ = .ok s₁) (hs₂ : rootSettings env args₂ = .ok s₂)
    (h₁ : hooqImpls env args₁ i = .ok (uses₁, i₁)) (h₂ : hooqImpls env args₂ i = .ok (uses₂, i₂))
    (hi : i.IsSource) (hq₁ : i₁.QuestionsStay) (hq₂ : i₂.QuestionsStay)
    (p : List Nat) (k : Kind) :
    i₁.HookOn p k ↔ i₂.HookOn p k := by
  obtain ⟨f, d, ⟨a1, a2, a3, a4, a5, -⟩, -⟩ := hp₁.settings hs₁
  obtain ⟨g, e, ⟨b1, b2, b3, b4, b5, -⟩, -⟩ := hp₂.settings hs₂
  refine C106_same hs₁ hs₂ (hp₁.nodup hs₁) (hp₂.nodup hs₂) h₁ h₂ ?_ ?_ ?_ ?_ ?_ hi hq₁ hq₂ p k
  · rw [a1, b1, d.targets, e.targets, if_neg he₁, if_neg he₂]
  · rw [a2, b2, d.tailIdents, e.tailIdents, if_neg he₁, if_neg he₂]
  · rw [a3, b3, d.ignoreIdents, e.ignoreIdents, if_neg he₁, if_neg he₂]
  · rw [a4, b4, d.resultTypes, e.resultTypes, if_neg he₁, if_neg he₂]
  · rw [a5, b5, d.hookInMacros.2 he₁, e.hookInMacros.2 he₂]

section
open Ex
set_option maxRecDepth 10000

example : item.IsSource := fun p n h => by
  have := allNodes_sub (t := item.tree) (f := fun n => !n.built) (by decide +kernel) h
  simpa using this

/-- The sample under `anyhow`. -/
def Ex.outAnyhow : Item :=
  match hooqImpls env [.path (.ofIdents ["anyhow"])] item with
  | .ok r => r.2
  | .error _ => item

/-- The hypotheses are met by the sample under the default flavor and under `anyhow`: the lists are the same, the
methods are not, and there are hooks of all kinds. -/
example : ∃ s₂ u₂, rootSettings env [] = .ok settings ∧
    rootSettings env [.path (.ofIdents ["anyhow"])] = .ok s₂ ∧
    settings.bindings.keys.Nodup ∧ s₂.bindings.keys.Nodup ∧
    hooqImpls env [] item = .ok ([], out) ∧ hooqImpls env [.path (.ofIdents ["anyhow"])] item = .ok (u₂, outAnyhow) ∧
    settings.targets = s₂.targets ∧ settings.tailIdents = s₂.tailIdents ∧ settings.ignoreIdents = s₂.ignoreIdents ∧
    settings.resultTypes = s₂.resultTypes ∧ settings.hookInMacros = s₂.hookInMacros ∧
    wordsOf settings.method.template ≠ wordsOf s₂.method.template :=
  ⟨_, _, root_ok, rfl, by decide, by decide, out_ok, rfl, rfl, rfl, rfl, rfl, rfl, by decide⟩

/-- The sample environment is one without the feature. -/
example : Genuine env ∧ env.consume = false := ⟨genuine, rfl⟩

theorem Ex.stay_of {i : Item} (h : i.tree.allNodes (fun n => match n.data.tag with
    | .question _ b => !b
    | _ => true) = true) : i.QuestionsStay := fun p n q hn he => by
  have := allNodes_sub h hn
  simp [he] at this

example : out.QuestionsStay := stay_of (by decide +kernel)

example : outAnyhow.QuestionsStay := stay_of (by decide +kernel)

/-- Hooks of all kinds in both. -/
example : ([[0, 0, 0], [6, 0], [7]].map fun p => (out.tree.sub p).map fun n => n.marks.map (·.1.kind)) =
      [some [.question], some [.ret], some [.tail]] ∧
    ([[0, 0, 0], [6, 0], [7]].map fun p => (outAnyhow.tree.sub p).map fun n => n.marks.map (·.1.kind)) =
      [some [.question], some [.ret], some [.tail]] := by
  decide +kernel

/-- A further flavor `mine`, which differs from the default only in its method `$expr!`. -/
def Ex.envMine : Env := { env with
  consume := true
  store := .ok (("mine", .mk { settings with method := .replace (tkVar "expr") true } []) ::
    presetFlavors true [tkId "helpers"] ⟨true, true, true, true⟩) }

/-- `fn f() -> Result { return Ok(x)?; w }` -/
def Ex.returnedQuestion : Item :=
  .fn [] { ident := "f", output := result, text := "fn f () -> Result" }
    [.expr (.mk [] (sp 1 1) (.ret (some (quest [] (call "Ok" [var "x" 1] 1) 1)))) true, .expr (var "w" 2) false]

/-- Why C106_more asks that no `?` is taken away: under `mine`, what is returned here has become `Ok(x)`, which is
ignored; under the default flavor it is hooked. -/
example : (hooqImpls envMine [] returnedQuestion).toOption.map (fun r =>
      (r.2.tree.sub [0, 0]).map fun n => n.marks.map (·.1.kind)) = some (some [.ret]) ∧
    (hooqImpls envMine [.path (.ofIdents ["mine"])] returnedQuestion).toOption.map (fun r =>
      (r.2.tree.sub [0, 0]).map fun n => n.marks.map (·.1.kind)) = some (some []) := by
  decide +kernel

end

end Hooq
