import Verif.Props.Compare

/-!
# The places of the hooks under other methods and bindings anywhere (C108)
-/

namespace Hooq

/-- Chains of nodes that are alike. -/
def AkinUp : List Data → List Data → Prop
  | [], [] => True
  | d :: a, e :: b => d.Akin e ∧ AkinUp a b
  | _, _ => False

theorem AkinList.get {ks ls : List RTree} (h : AkinList ks ls) (j : Nat) :
    (ks[j]? = none ∧ ls[j]? = none) ∨ ∃ k l, ks[j]? = some k ∧ ls[j]? = some l ∧ k.Akin l := by
  induction ks generalizing ls j with
  | nil => cases ls with
    | nil => simp
    | cons l ls => simp [AkinList] at h
  | cons k ks ih => cases ls with
    | nil => simp [AkinList] at h
    | cons l ls =>
      simp only [AkinList] at h
      cases j with
      | zero => exact .inr ⟨k, l, rfl, rfl, h.1⟩
      | succ j => simpa using ih h.2 j

theorem RTree.Akin.upFrom {t t' : RTree} (h : t.Akin t') {p : List Nat} {a b u : List Data} (hab : AkinUp a b)
    (hu : t.upFrom a p = some u) : ∃ v, t'.upFrom b p = some v ∧ AkinUp u v := by
  induction p generalizing t t' a b with
  | nil =>
    obtain ⟨d, ms, ks⟩ := t
    obtain ⟨e, ns, ls⟩ := t'
    simp only [RTree.Akin] at h
    simp only [RTree.upFrom, Option.some.injEq] at hu
    subst hu
    exact ⟨e :: b, rfl, h.1, hab⟩
  | cons j p ih =>
    obtain ⟨d, ms, ks⟩ := t
    obtain ⟨e, ns, ls⟩ := t'
    simp only [RTree.Akin] at h
    simp only [RTree.upFrom] at hu ⊢
    rcases h.2.get j with ⟨h1, h2⟩ | ⟨k, l, h1, h2, h3⟩
    · rw [h1] at hu; simp at hu
    · rw [h1] at hu; rw [h2]; exact ih h3 (show AkinUp (d :: a) (e :: b) from ⟨h.1, hab⟩) hu

theorem RTree.Akin.sub {t t' : RTree} (h : t.Akin t') {p : List Nat} {n : RTree} (hn : t.sub p = some n) :
    ∃ n', t'.sub p = some n' ∧ n.Akin n' := by
  induction p generalizing t t' with
  | nil =>
    obtain ⟨d, ms, ks⟩ := t
    obtain ⟨e, ns, ls⟩ := t'
    obtain rfl := Option.some.inj hn
    exact ⟨_, rfl, h⟩
  | cons j p ih =>
    obtain ⟨d, ms, ks⟩ := t
    obtain ⟨e, ns, ls⟩ := t'
    simp only [RTree.Akin] at h
    simp only [RTree.sub] at hn ⊢
    rcases h.2.get j with ⟨h1, h2⟩ | ⟨k, l, h1, h2, h3⟩
    · rw [h1] at hn; simp at hn
    · rw [h1] at hn; rw [h2]; exact ih h3 hn

theorem Data.Akin.seen {d e : Data} (h : d.Akin e) : d.seen.filter Meta.decides = e.seen.filter Meta.decides := by
  unfold Data.seen
  rw [← h.mode, ← h.edge]
  cases d.mode <;> simp only [h.attrs]
  split <;> simp [h.attrs]

theorem AkinUp.attrsOver {a b : List Data} (h : AkinUp a b) :
    (Hooq.attrsOver a).filter Meta.decides = (Hooq.attrsOver b).filter Meta.decides := by
  induction a generalizing b with
  | nil => cases b with
    | nil => rfl
    | cons e b => simp [AkinUp] at h
  | cons d a ih => cases b with
    | nil => simp [AkinUp] at h
    | cons e b =>
      simp only [AkinUp] at h
      have := ih h.2
      simp only [Hooq.attrsOver, List.reverse_cons, List.flatMap_append, List.filter_append, List.flatMap_cons,
        List.flatMap_nil, List.append_nil] at this ⊢
      rw [this, h.1.seen]

theorem filterMap_decides {β : Type} {f : Attr → Option β} (hf : ∀ a, a.decides = false → f a = none)
    (l : List Attr) : l.filterMap f = (l.filter Meta.decides).filterMap f := by
  induction l with
  | nil => rfl
  | cons a l ih =>
    cases hd : a.decides with
    | true => simp only [List.filter_cons, hd, if_true, List.filterMap_cons, ih]
    | false => simp only [List.filter_cons, hd, List.filterMap_cons, hf a hd, ih]; simp

theorem AkinUp.lastSet {a b : List Data} (h : AkinUp a b) {β : Type} {f : Attr → Option β}
    (hf : ∀ x, x.decides = false → f x = none) :
    Hooq.lastSet f (Hooq.attrsOver a) = Hooq.lastSet f (Hooq.attrsOver b) := by
  unfold Hooq.lastSet
  rw [filterMap_decides hf, h.attrsOver, ← filterMap_decides hf]

theorem whenNamed_none {α : Type} {p : Path} {names : List String} {e : Option α} (h : p ∉ names.map hooqPath) :
    whenNamed p names e = none := if_neg h

theorem AkinUp.targets {a b : List Data} (h : AkinUp a b) (env : Env) (s : Settings) :
    targetsAt env s a = targetsAt env s b := by
  unfold targetsAt
  rw [h.lastSet fun x hx => ?_]
  cases x <;> simp only [Meta.decides, decide_eq_false_iff_not, List.map_cons, List.map_nil, List.mem_cons,
    not_or] at hx <;> simp [targetsOf, whenNamed, hx]

theorem AkinUp.tailIdents {a b : List Data} (h : AkinUp a b) (env : Env) (s : Settings) :
    tailIdentsAt env s a = tailIdentsAt env s b := by
  unfold tailIdentsAt
  rw [h.lastSet fun x hx => ?_]
  cases x <;> simp only [Meta.decides, decide_eq_false_iff_not, List.map_cons, List.map_nil, List.mem_cons,
    not_or] at hx <;> simp [tailIdentsOf, whenNamed, hx]

theorem AkinUp.resultTypes {a b : List Data} (h : AkinUp a b) (env : Env) (s : Settings) :
    resultTypesAt env s a = resultTypesAt env s b := by
  unfold resultTypesAt
  rw [h.lastSet fun x hx => ?_]
  cases x <;> simp only [Meta.decides, decide_eq_false_iff_not, List.map_cons, List.map_nil, List.mem_cons,
    not_or] at hx <;> simp [resultTypesOf, whenNamed, hx]

theorem AkinUp.macros {a b : List Data} (h : AkinUp a b) (env : Env) (s : Settings) :
    macrosAt env s a = macrosAt env s b := by
  unfold macrosAt
  rw [h.lastSet fun x hx => ?_]
  cases x <;> simp only [Meta.decides, decide_eq_false_iff_not, List.map_cons, List.map_nil, List.mem_cons,
    not_or] at hx <;> simp [macrosOf, whenNamed, hx]

theorem ignoreOf_keep {env : Env} {x : Attr} (hx : x.decides = false) : ignoreOf env x = .keep := by
  cases x <;> simp only [Meta.decides, decide_eq_false_iff_not, List.map_cons, List.map_nil, List.mem_cons,
    not_or] at hx <;> simp [ignoreOf, hx]

theorem foldl_decides (env : Env) (l : List Attr) (cur : Option (List String)) :
    l.foldl (fun cur a => (ignoreOf env a).apply cur) cur =
      (l.filter Meta.decides).foldl (fun cur a => (ignoreOf env a).apply cur) cur := by
  induction l generalizing cur with
  | nil => rfl
  | cons a l ih =>
    cases hd : a.decides with
    | true => simp only [List.filter_cons, hd, if_true, List.foldl_cons, ih]
    | false =>
      rw [List.foldl_cons, ignoreOf_keep hd, List.filter_cons, hd, if_neg (by simp)]
      exact ih cur

theorem Data.Akin.nodeIgnore {d e : Data} (h : d.Akin e) (env : Env) :
    Hooq.nodeIgnore env d.seen = Hooq.nodeIgnore env e.seen := by
  unfold Hooq.nodeIgnore
  rw [foldl_decides, h.seen, ← foldl_decides]

theorem AkinUp.ignore {a b : List Data} (h : AkinUp a b) (env : Env) (s : Settings) :
    ignoreAt env s a = ignoreAt env s b := by
  unfold ignoreAt
  congr 1
  induction a generalizing b with
  | nil => cases b with
    | nil => rfl
    | cons e b => simp [AkinUp] at h
  | cons d a ih => cases b with
    | nil => simp [AkinUp] at h
    | cons e b =>
      simp only [AkinUp] at h
      simp only [List.findSome?_cons, h.1.nodeIgnore env, ih h.2]

theorem any_decides {f : Attr → Bool} (hf : ∀ a, a.decides = false → f a = false) (l : List Attr) :
    l.any f = (l.filter Meta.decides).any f := by
  induction l with
  | nil => rfl
  | cons a l ih =>
    cases hd : a.decides with
    | true => simp only [List.filter_cons, hd, if_true, List.any_cons, ih]
    | false => simp only [List.filter_cons, hd, List.any_cons, hf a hd, ih]; simp

theorem Data.Akin.any {d e : Data} (h : d.Akin e) {f : Attr → Bool} (hf : ∀ a, a.decides = false → f a = false) :
    d.seen.any f = e.seen.any f := by
  rw [any_decides hf, h.seen, ← any_decides hf]

theorem AkinUp.skipped {a b : List Data} (h : AkinUp a b) (left : Bool) : skippedUp left a = skippedUp left b := by
  induction a generalizing b left with
  | nil => cases b with
    | nil => rfl
    | cons e b => simp [AkinUp] at h
  | cons d a ih => cases b with
    | nil => simp [AkinUp] at h
    | cons e b =>
      simp only [AkinUp] at h
      have h1 : d.seen.any Meta.isSkipAll = e.seen.any Meta.isSkipAll := h.1.any fun x hx => by
        cases x <;> simp [Meta.decides] at hx <;> simp [Meta.isSkipAll, hx]
      have h2 : d.seen.any Meta.isSkip = e.seen.any Meta.isSkip := h.1.any fun x hx => by
        cases x <;> simp [Meta.decides] at hx <;> simp [Meta.isSkip, hx]
      simp only [skippedUp, h1, h2, h.1.edge, ih h.2]

theorem AkinUp.hooked {a b : List Data} (h : AkinUp a b) (env : Env) (s : Settings) (k : Kind) :
    hookedAt env s a k = hookedAt env s b k := by
  unfold hookedAt skippedAt
  rw [h.skipped, h.targets]

theorem AkinUp.output {a b : List Data} (h : AkinUp a b) : outputAt a = outputAt b := by
  have : innermostFn a = innermostFn b := by
    unfold innermostFn
    induction a generalizing b with
    | nil => cases b with
      | nil => rfl
      | cons e b => simp [AkinUp] at h
    | cons d a ih => cases b with
      | nil => simp [AkinUp] at h
      | cons e b =>
        simp only [AkinUp] at h
        simp only [List.findSome?_cons, h.1.edge, ih h.2]
  unfold outputAt
  rw [this]

theorem AkinUp.result {a b : List Data} (h : AkinUp a b) (env : Env) (s : Settings) :
    resultAt env s a = resultAt env s b := by
  unfold resultAt
  rw [h.output, h.resultTypes]

theorem AkinUp.returnWanted {a b : List Data} (h : AkinUp a b) (env : Env) (s : Settings) (c : Option Path) :
    Hooq.returnWanted env s a c = Hooq.returnWanted env s b c := by
  unfold Hooq.returnWanted
  rw [h.tailIdents, h.result, h.ignore]

theorem AkinUp.tailWanted {a b : List Data} (h : AkinUp a b) (env : Env) (s : Settings) (tk : TailKind)
    (c : Option Path) : Hooq.tailWanted env s a tk c = Hooq.tailWanted env s b tk c := by
  unfold Hooq.tailWanted
  rw [h.tailIdents, h.result, h.ignore]

theorem AkinUp.reached {a b : List Data} (h : AkinUp a b) (env : Env) (s : Settings) :
    Hooq.reached env s a = Hooq.reached env s b := by
  induction a generalizing b with
  | nil => cases b with
    | nil => rfl
    | cons e b => simp [AkinUp] at h
  | cons d a ih => cases b with
    | nil => simp [AkinUp] at h
    | cons e b =>
      have h' := h
      simp only [AkinUp] at h
      rw [reached_cons, reached_cons, ih h.2, h.1.edge]
      cases a with
      | nil => cases b with
        | nil => rfl
        | cons => simp [AkinUp] at h
      | cons x a => cases b with
        | nil => simp [AkinUp] at h
        | cons y b => simp only [h.2.1.tag, h.2.macros env s]

mutual
theorem RTree.Akin.symm : ∀ {t t' : RTree}, t.Akin t' → t'.Akin t
  | .mk d ms ks, .mk e ns ls, h => by
    simp only [RTree.Akin] at h ⊢
    exact ⟨⟨h.1.edge.symm, h.1.tag.symm, h.1.mode.symm, h.1.attrs.symm⟩, AkinList.symm h.2⟩
theorem AkinList.symm : ∀ {ks ls : List RTree}, AkinList ks ls → AkinList ls ks
  | [], [], _ => trivial
  | k :: ks, l :: ls, h => by
    simp only [AkinList] at h ⊢
    exact ⟨RTree.Akin.symm h.1, AkinList.symm h.2⟩
  | [], _ :: _, h => by simp [AkinList] at h
  | _ :: _, [], h => by simp [AkinList] at h
end

theorem RTree.Akin.calls {i j : Item} (h : i.tree.Akin j.tree) (p : List Nat) : i.calls p = j.calls p := by
  unfold Item.calls
  cases hi : i.tree.sub p with
  | none =>
    cases hj : j.tree.sub p with
    | none => rfl
    | some n =>
      obtain ⟨x, hx, -⟩ := h.symm.sub hj
      rw [hi] at hx; simp at hx
  | some n =>
    obtain ⟨m, hm, hl⟩ := h.sub hi
    rw [hm]
    obtain ⟨d, ms, ks⟩ := n
    obtain ⟨e, ns, ls⟩ := m
    simp only [RTree.Akin] at hl
    simp only [RTree.data_mk, RTree.kids_mk, hl.1.tag]
    cases ks with
    | nil => cases ls with
      | nil => rfl
      | cons => simp [AkinList] at hl
    | cons k ks => cases ls with
      | nil => simp [AkinList] at hl
      | cons l ls =>
        have hk := hl.2.1
        obtain ⟨dk, _, _⟩ := k
        obtain ⟨dl, _, _⟩ := l
        simp only [RTree.Akin] at hk
        cases e.tag <;> first | rfl | simp only [RTree.data_mk, hk.1.tag]

/-- Where the nodes above a place are akin, and the same is called there, there is a hook with a flavor that hooks no
less if there was one. -/
theorem hooks_akin {env : Env} {args₁ args₂ : List Meta} {s₁ s₂ : Settings} {i j i' j' : Item}
    {uses₁ uses₂ : List Path} (hs₁ : rootSettings env args₁ = .ok s₁) (hs₂ : rootSettings env args₂ = .ok s₂)
    (hb₁ : s₁.bindings.keys.Nodup) (hb₂ : s₂.bindings.keys.Nodup)
    (h₁ : hooqImpls env args₁ i = .ok (uses₁, i')) (h₂ : hooqImpls env args₂ j = .ok (uses₂, j'))
    (hw : s₁.Within s₂) (hi : i.IsSource) (hq₁ : i'.QuestionsStay) (hq₂ : j'.QuestionsStay) {p : List Nat} {k : Kind}
    (hp : i.calls p = j.calls p) (hup : ∀ u, i.chain p = some u → ∃ v, j.chain p = some v ∧ AkinUp u v)
    (ho : i'.HookOn p k) : j'.HookOn p k := by
  obtain ⟨n0, hn0, -⟩ := id ho
  obtain ⟨d0, up0, hu⟩ := chain_of_output hs₁ hb₁ h₁ p n0 hn0
  obtain ⟨n, up, g1, g2⟩ := upFrom_sub hu
  rw [g2] at hu
  obtain ⟨hr, n', m, h3, h4, h5, h6⟩ := HookOn.fact hs₁ hb₁ h₁ hi hu ho
  obtain ⟨v, hv, ha⟩ := hup _ hu
  obtain ⟨e, vp, rfl⟩ : ∃ e vp, v = e :: vp := by
    cases v with
    | nil => simp [AkinUp] at ha
    | cons e vp => exact ⟨e, vp, rfl⟩
  have hr2 : reached env s₂ (e :: vp) = true := (ha.reached env s₂).symm.trans (hw.reached env hr)
  obtain ⟨x, e5, -⟩ := C05_question_kept_at hs₂ hb₂ h₂ hv
  have hc : n'.bare.callee = x.bare.callee :=
    (callee_calls hs₁ hb₁ h₁ hq₁ hu hr h3).trans
      (hp.trans (callee_calls hs₂ hb₂ h₂ hq₂ hv hr2 e5).symm)
  cases k with
  | question =>
    cases up with
    | nil => simp [HookFact, h5] at h6
    | cons d up =>
      simp only [HookFact, h5] at h6
      obtain ⟨q, b, -, h7, h8, -⟩ := h6
      obtain ⟨f, vp, rfl⟩ : ∃ f w, vp = f :: w := by
        cases vp with
        | nil => simp [AkinUp] at ha
        | cons f w => exact ⟨f, w, rfl⟩
      obtain ⟨p, l, rfl, hd⟩ := chain_above hv
      have h9 : f.tag = .question q b := ha.2.1.tag ▸ h7
      have := C01_question_placement hs₂ hb₂ h₂ hd h9
      rw [if_pos (reached_tail hr2)] at this
      obtain ⟨n2, k2, e1, e2, e3⟩ := this
      have hcond : (!skippedAt (f :: vp) && (targetsAt env s₂ (f :: vp)).question) = true :=
        (AkinUp.hooked ha.2 env s₂ .question).symm.trans (hw.hookedAt env h8)
      rw [if_pos hcond] at e3
      obtain ⟨hk, src, e3, e4, -⟩ := e3
      have e6 := sub_kid e1 e5
      rw [e2] at e6
      have : l = 0 := by
        cases l with
        | zero => rfl
        | succ l => simp at e6
      subst this
      simp only [List.getElem?_cons_zero, Option.some.injEq] at e6
      subst e6
      exact ⟨k2, e5, _, by rw [e3]; exact List.mem_singleton_self _, e4⟩
  | ret =>
    cases up with
    | nil => simp [HookFact, h5] at h6
    | cons d up =>
      simp only [HookFact, h5] at h6
      obtain ⟨-, h7, h8, -⟩ := h6
      obtain ⟨f, vp, rfl⟩ : ∃ f w, vp = f :: w := by
        cases vp with
        | nil => simp [AkinUp] at ha
        | cons f w => exact ⟨f, w, rfl⟩
      obtain ⟨p, l, rfl, hd1⟩ := chain_above hu
      have hd : j.chain p = some (f :: vp) := upFrom_snoc hv
      obtain ⟨y, a1, a2⟩ := C56_return hs₁ hb₁ h₁ hd1 h7 (reached_tail hr)
      have a3 := (a2 n' (List.mem_of_getElem? (sub_kid a1 h3))).1 (List.ne_nil_of_mem h4)
      have h9 : f.tag = .ret := ha.2.1.tag ▸ h7
      have := C02_return_placement hs₂ hb₂ h₂ hd h9
      rw [if_pos (reached_tail hr2)] at this
      obtain ⟨n0, n2, b0, b2, b1, b3⟩ := this
      have e6 := sub_kid b2 e5
      rcases b3 with ⟨-, b3⟩ | ⟨k0, k', -, b3, b4⟩
      · rw [b3] at e6; simp at e6
      · rw [b3] at e6
        have : l = 0 := by
          cases l with
          | zero => rfl
          | succ l => simp at e6
        subst this
        simp only [List.getElem?_cons_zero, Option.some.injEq] at e6
        subst e6
        have hc2 : (!skippedAt (f :: vp) && (targetsAt env s₂ (f :: vp)).ret &&
            returnWanted env s₂ (f :: vp) k'.bare.callee) = true := by
          rw [← hc, Bool.and_eq_true]
          exact ⟨(AkinUp.hooked ha.2 env s₂ .ret).symm.trans (hw.hookedAt env h8),
            (AkinUp.returnWanted ha.2 env s₂ _).symm.trans (hw.returnWanted env a3.2.1)⟩
        split at b4
        · obtain ⟨hk, src, b5, b6, -⟩ := b4
          exact ⟨k', e5, _, by rw [b5]; exact List.mem_singleton_self _, b6⟩
        · rename_i hc3; exact absurd hc2 hc3
  | tail =>
    have key := C03_tail_placement hs₁ hb₁ h₁ hu
    rw [if_pos hr] at key
    obtain ⟨y, a1, a2⟩ := key
    obtain rfl := Option.some.inj (h3.symm.trans a1)
    have hm : m ∈ n'.tailMarks := by simp [RTree.tailMarks, h4, h5]
    have key := C03_tail_placement hs₂ hb₂ h₂ hv
    rw [if_pos hr2] at key
    obtain ⟨z, b1, b2⟩ := key
    obtain rfl := Option.some.inj (e5.symm.trans b1)
    cases ht : n.data.edge.tail with
    | none => simp only [ht] at a2; rw [a2] at hm; simp at hm
    | some tk =>
      have ht2 : e.edge.tail = some tk := ha.1.edge ▸ ht
      simp only [ht] at a2
      simp only [ht2] at b2
      split at a2
      · rename_i hcond
        have hw2 : tailWanted env s₂ (e :: vp) tk x.bare.callee = true := by
          rw [← hc, ← ha.tailWanted]
          refine hw.tailWanted env ?_
          have := hcond.2
          rw [Bool.and_eq_true] at this
          exact this.2
        have hh : hookedAt env s₂ (e :: vp) .tail = true := by
          rw [← ha.hooked]
          refine hw.hookedAt env ?_
          have := hcond.2
          rw [Bool.and_eq_true] at this
          exact this.1
        rw [if_pos ⟨ha.1.mode ▸ hcond.1, by rw [Bool.and_eq_true]; exact ⟨hh, hw2⟩⟩] at b2
        obtain ⟨hk, src, b5, b6, -⟩ := b2
        have : (hk, src) ∈ x.tailMarks := by rw [b5]; exact List.mem_singleton_self _
        exact ⟨x, e5, _, List.mem_of_mem_filter this, b6⟩
      · rw [a2] at hm; simp at hm

/-- C108: with other methods and bindings, anywhere in the item and in the flavor, and with a flavor that hooks no
less, there is a hook wherever there was one, as long as no `?` is taken away. -/
theorem C108_more {env : Env} {args₁ args₂ : List Meta} {s₁ s₂ : Settings} {i j i' j' : Item}
    {uses₁ uses₂ : List Path} (hs₁ : rootSettings env args₁ = .ok s₁) (hs₂ : rootSettings env args₂ = .ok s₂)
    (hb₁ : s₁.bindings.keys.Nodup) (hb₂ : s₂.bindings.keys.Nodup)
    (h₁ : hooqImpls env args₁ i = .ok (uses₁, i')) (h₂ : hooqImpls env args₂ j = .ok (uses₂, j'))
    (hw : s₁.Within s₂) (hij : i.tree.Akin j.tree) (hi : i.IsSource) (hq₁ : i'.QuestionsStay)
    (hq₂ : j'.QuestionsStay) {p : List Nat} {k : Kind} (ho : i'.HookOn p k) : j'.HookOn p k :=
  hooks_akin hs₁ hs₂ hb₁ hb₂ h₁ h₂ hw hi hq₁ hq₂ (hij.calls p)
    (fun _ hu => hij.upFrom (a := []) (b := []) trivial hu) ho

/-- C108: attributes that set methods or bindings, or are none of hooq, change no place of a hook. -/
theorem C108_same {env : Env} {args : List Meta} {s : Settings} {i j i' j' : Item}
    {uses₁ uses₂ : List Path} (hs : rootSettings env args = .ok s) (hb : s.bindings.keys.Nodup)
    (h₁ : hooqImpls env args i = .ok (uses₁, i')) (h₂ : hooqImpls env args j = .ok (uses₂, j'))
    (hij : i.tree.Akin j.tree) (hi : i.IsSource) (hj : j.IsSource) (hq₁ : i'.QuestionsStay) (hq₂ : j'.QuestionsStay)
    (p : List Nat) (k : Kind) : i'.HookOn p k ↔ j'.HookOn p k :=
  ⟨C108_more hs hs hb hb h₁ h₂ ⟨fun _ => id, fun _ => id, fun _ => id, fun _ => id, id⟩ hij hi hq₁ hq₂,
   C108_more hs hs hb hb h₂ h₁ ⟨fun _ => id, fun _ => id, fun _ => id, fun _ => id, id⟩ hij.symm hj hq₂ hq₁⟩

/-- C108 without the feature `consume-question`: nothing has to be asked of the methods. -/
theorem C108_without {env : Env} {args : List Meta} {i j i' j' : Item} {uses₁ uses₂ : List Path}
    (hg : Genuine env) (hc : env.consume = false) (h₁ : hooqImpls env args i = .ok (uses₁, i'))
    (h₂ : hooqImpls env args j = .ok (uses₂, j')) (hij : i.tree.Akin j.tree) (hi : i.IsSource) (hj : j.IsSource)
    (p : List Nat) (k : Kind) : i'.HookOn p k ↔ j'.HookOn p k := by
  obtain ⟨s, hs⟩ := rootSettings_of_ok h₁
  exact C108_same hs (genuine_root hg hs).1 h₁ h₂ hij hi hj (C106_feature hg hc h₁ hi) (C106_feature hg hc h₂ hj) p k

section
open Ex
set_option maxRecDepth 10000

/-- `fn f() -> Result { { a?; } #[hooq::hook_targets("return")] { b?; } w }`, with further attributes on the first
block. -/
def Ex.twoBlocks (attrs : List Attr) : Item :=
  .fn [] { ident := "f", output := result, text := "fn f () -> Result" }
    [.expr (.mk attrs (sp 1 1) (.block "" [.expr (quest [] (var "a" 1) 1) true])) true,
     .expr (.mk [.list (hooqPath "hook_targets") [tkStr "return"]] (sp 2 1)
       (.block "" [.expr (quest [] (var "b" 2) 2) true])) true,
     .expr (var "w" 3) false]

/-- `#[hooq::method(.m())] #[hooq::x = y]` -/
def Ex.textAttrs : List Attr :=
  [.list (hooqPath "method") [tkP '.', tkId "m", tkParen []], .nv (hooqPath "x") ⟨.path (.ofIdents ["y"]), "y"⟩]

/-- The expansion of the sample with these attributes, and without. -/
def Ex.outBlocks (attrs : List Attr) : Item :=
  match hooqImpls env [] (twoBlocks attrs) with
  | .ok r => r.2
  | .error _ => twoBlocks attrs

example : (twoBlocks []).tree.Akin (twoBlocks textAttrs).tree := by
  repeat' first
    | exact trivial
    | exact ⟨rfl, rfl, rfl, rfl⟩
    | constructor

example : Genuine env ∧ env.consume = false ∧ hooqImpls env [] (twoBlocks []) = .ok ([], outBlocks []) ∧
    hooqImpls env [] (twoBlocks textAttrs) = .ok ([], outBlocks textAttrs) :=
  ⟨genuine, rfl, rfl, rfl⟩

example (l : List Attr) (h : l = [] ∨ l = textAttrs) : (twoBlocks l).IsSource := fun p n hn => by
  have := allNodes_sub (t := (twoBlocks l).tree) (f := fun n => !n.built)
    (by rcases h with rfl | rfl <;> decide +kernel) hn
  simpa using this

/-- Both have the same hooks, the first with another method. -/
example : ([[], textAttrs].map fun l => [[0, 0, 0], [1, 0, 0], [2]].map fun p =>
      ((outBlocks l).tree.sub p).map fun n => n.marks.map (·.1.kind)) =
    [[some [.question], some [], some [.tail]], [some [.question], some [], some [.tail]]] := by
  decide +kernel

end

end Hooq
