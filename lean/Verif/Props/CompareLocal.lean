import Verif.Props.CompareAttr

/-!
# An attribute changes hooks only inside its node (C109)
-/

namespace Hooq

theorem SameForms.get {ks ls : List RTree} (h : SameForms ks ls) (j : Nat) :
    (ks[j]? = none ∧ ls[j]? = none) ∨ ∃ k l, ks[j]? = some k ∧ ls[j]? = some l ∧ k.SameForm l := by
  induction ks generalizing ls j with
  | nil => cases ls with
    | nil => simp
    | cons l ls => simp [SameForms] at h
  | cons k ks ih => cases ls with
    | nil => simp [SameForms] at h
    | cons l ls =>
      simp only [SameForms] at h
      cases j with
      | zero => exact .inr ⟨k, l, rfl, rfl, h.1⟩
      | succ j => simpa using ih h.2 j

mutual
theorem RTree.SameForm.symm : ∀ {t t' : RTree}, t.SameForm t' → t'.SameForm t
  | .mk d ms ks, .mk e ns ls, h => by
    simp only [RTree.SameForm] at h ⊢
    exact ⟨⟨h.1.1.symm, h.1.2.1.symm, h.1.2.2.symm⟩, SameForms.symm h.2⟩
theorem SameForms.symm : ∀ {ks ls : List RTree}, SameForms ks ls → SameForms ls ks
  | [], [], _ => trivial
  | k :: ks, l :: ls, h => by
    simp only [SameForms] at h ⊢
    exact ⟨RTree.SameForm.symm h.1, SameForms.symm h.2⟩
  | [], _ :: _, h => by simp [SameForms] at h
  | _ :: _, [], h => by simp [SameForms] at h
end

theorem RTree.SameForm.sub {t t' : RTree} (h : t.SameForm t') {p : List Nat} {n : RTree} (hn : t.sub p = some n) :
    ∃ n', t'.sub p = some n' ∧ n.SameForm n' := by
  induction p generalizing t t' with
  | nil =>
    obtain ⟨d, ms, ks⟩ := t
    obtain ⟨e, ns, ls⟩ := t'
    obtain rfl := Option.some.inj hn
    exact ⟨_, rfl, h⟩
  | cons j p ih =>
    obtain ⟨d, ms, ks⟩ := t
    obtain ⟨e, ns, ls⟩ := t'
    simp only [RTree.SameForm] at h
    simp only [RTree.sub] at hn ⊢
    rcases h.2.get j with ⟨h1, h2⟩ | ⟨k, l, h1, h2, h3⟩
    · rw [h1] at hn; simp at hn
    · rw [h1] at hn; rw [h2]; exact ih h3 hn

theorem RTree.SameForm.upFrom {t t' : RTree} (h : t.SameForm t') {p : List Nat} {a b u : List Data}
    (hq : ∀ q, q <+: p → t.AgreeAt t' q) (hab : AkinUp a b)
    (hu : t.upFrom a p = some u) : ∃ v, t'.upFrom b p = some v ∧ AkinUp u v := by
  induction p generalizing t t' a b with
  | nil =>
    have h0 := hq [] (List.nil_prefix)
    obtain ⟨d, ms, ks⟩ := t
    obtain ⟨e, ns, ls⟩ := t'
    simp only [RTree.SameForm] at h
    simp only [RTree.upFrom, Option.some.injEq] at hu
    subst hu
    exact ⟨e :: b, rfl, ⟨h.1.1, h.1.2.1, h.1.2.2, h0 _ _ rfl rfl⟩, hab⟩
  | cons j p ih =>
    have h0 := hq [] (List.nil_prefix)
    obtain ⟨d, ms, ks⟩ := t
    obtain ⟨e, ns, ls⟩ := t'
    simp only [RTree.SameForm] at h
    simp only [RTree.upFrom] at hu ⊢
    rcases h.2.get j with ⟨h1, h2⟩ | ⟨k, l, h1, h2, h3⟩
    · rw [h1] at hu; simp at hu
    · rw [h1] at hu
      rw [h2]
      refine ih h3 (fun q hq' n m hn hm => ?_)
        (show AkinUp (d :: a) (e :: b) from ⟨⟨h.1.1, h.1.2.1, h.1.2.2, h0 _ _ rfl rfl⟩, hab⟩) hu
      exact hq (j :: q) (List.cons_prefix_cons.2 ⟨rfl, hq'⟩) n m (by simp only [RTree.sub, h1, hn])
        (by simp only [RTree.sub, h2, hm])

theorem RTree.SameForm.calls {i j : Item} (h : i.tree.SameForm j.tree) (p : List Nat) : i.calls p = j.calls p := by
  unfold Item.calls
  cases hi : i.tree.sub p with
  | none =>
    cases hj : j.tree.sub p with
    | none => rfl
    | some n =>
      obtain ⟨x, hx, -⟩ := h.symm.sub hj
      rw [hi] at hx; simp at hx
  | some n =>
    obtain ⟨m, hm, hl⟩ := h.sub hi
    rw [hm]
    obtain ⟨d, ms, ks⟩ := n
    obtain ⟨e, ns, ls⟩ := m
    simp only [RTree.SameForm] at hl
    simp only [RTree.data_mk, RTree.kids_mk, hl.1.2.1]
    cases ks with
    | nil => cases ls with
      | nil => rfl
      | cons => simp [SameForms] at hl
    | cons k ks => cases ls with
      | nil => simp [SameForms] at hl
      | cons l ls =>
        have hk := hl.2.1
        obtain ⟨dk, _, _⟩ := k
        obtain ⟨dl, _, _⟩ := l
        simp only [RTree.SameForm] at hk
        cases e.tag <;> first | rfl | simp only [RTree.data_mk, hk.1.2.1]

/-- C109: whether there is a hook at a place depends on no attribute but those at and above the place. -/
theorem C109_above {env : Env} {args : List Meta} {s : Settings} {i j i' j' : Item}
    {uses₁ uses₂ : List Path} (hs : rootSettings env args = .ok s) (hb : s.bindings.keys.Nodup)
    (h₁ : hooqImpls env args i = .ok (uses₁, i')) (h₂ : hooqImpls env args j = .ok (uses₂, j'))
    (hij : i.tree.SameForm j.tree) (hi : i.IsSource) (hj : j.IsSource) (hq₁ : i'.QuestionsStay)
    (hq₂ : j'.QuestionsStay) {p : List Nat} (hp : ∀ q, q <+: p → i.tree.AgreeAt j.tree q) (k : Kind) :
    i'.HookOn p k ↔ j'.HookOn p k :=
  have hw : s.Within s := ⟨fun _ => id, fun _ => id, fun _ => id, fun _ => id, id⟩
  ⟨hooks_akin hs hs hb hb h₁ h₂ hw hi hq₁ hq₂ (hij.calls p)
     (fun _ hu => hij.upFrom hp (a := []) (b := []) trivial hu),
   hooks_akin hs hs hb hb h₂ h₁ hw hj hq₂ hq₁ (hij.calls p).symm
     (fun _ hu => hij.symm.upFrom (fun q hq n m hn hm => (hp q hq m n hm hn).symm) (a := []) (b := []) trivial hu)⟩

/-- C109: attributes put on a node, or taken from it, change hooks only inside the node. -/
theorem C109_inside {env : Env} {args : List Meta} {s : Settings} {i j i' j' : Item}
    {uses₁ uses₂ : List Path} (hs : rootSettings env args = .ok s) (hb : s.bindings.keys.Nodup)
    (h₁ : hooqImpls env args i = .ok (uses₁, i')) (h₂ : hooqImpls env args j = .ok (uses₂, j'))
    (hij : i.tree.SameForm j.tree) (hi : i.IsSource) (hj : j.IsSource) (hq₁ : i'.QuestionsStay)
    (hq₂ : j'.QuestionsStay) {r : List Nat} (hr : ∀ q, q ≠ r → i.tree.AgreeAt j.tree q)
    {p : List Nat} {k : Kind} (hne : ¬ (i'.HookOn p k ↔ j'.HookOn p k)) : r <+: p := by
  by_contra hp
  refine hne (C109_above hs hb h₁ h₂ hij hi hj hq₁ hq₂ (fun q hq => hr q ?_) k)
  rintro rfl
  exact hp hq

/-- C109 without the feature `consume-question`: nothing has to be asked of the methods. -/
theorem C109_without {env : Env} {args : List Meta} {i j i' j' : Item} {uses₁ uses₂ : List Path}
    (hg : Genuine env) (hc : env.consume = false) (h₁ : hooqImpls env args i = .ok (uses₁, i'))
    (h₂ : hooqImpls env args j = .ok (uses₂, j')) (hij : i.tree.SameForm j.tree) (hi : i.IsSource) (hj : j.IsSource)
    {r : List Nat} (hr : ∀ q, q ≠ r → i.tree.AgreeAt j.tree q) {p : List Nat} {k : Kind}
    (hne : ¬ (i'.HookOn p k ↔ j'.HookOn p k)) : r <+: p := by
  obtain ⟨s, hs⟩ := rootSettings_of_ok h₁
  exact C109_inside hs (genuine_root hg hs).1 h₁ h₂ hij hi hj (C106_feature hg hc h₁ hi) (C106_feature hg hc h₂ hj) hr
    hne

section
open Ex
set_option maxRecDepth 10000

/-- `#[hooq::skip_all]` -/
def Ex.skipAttrs : List Attr := [.path (hooqPath "skip_all")]

example : (twoBlocks []).tree.SameForm (twoBlocks skipAttrs).tree := by
  repeat' first
    | exact trivial
    | exact ⟨rfl, rfl, rfl⟩
    | constructor

example : Genuine env ∧ env.consume = false ∧ hooqImpls env [] (twoBlocks []) = .ok ([], outBlocks []) ∧
    hooqImpls env [] (twoBlocks skipAttrs) = .ok ([], outBlocks skipAttrs) :=
  ⟨genuine, rfl, rfl, rfl⟩

example : ∀ q, q ≠ [0] → (twoBlocks []).tree.AgreeAt (twoBlocks skipAttrs).tree q := by
  intro q hq n m hn hm
  match q, hq with
  | [], _ =>
    obtain rfl := Option.some.inj hn
    obtain rfl := Option.some.inj hm
    rfl
  | 0 :: x :: q, _ =>
    have : (twoBlocks []).tree.sub (0 :: x :: q) = (twoBlocks skipAttrs).tree.sub (0 :: x :: q) := rfl
    rw [hn, hm] at this
    rw [Option.some.inj this]
  | (y + 1) :: q, _ =>
    have : (twoBlocks []).tree.sub ((y + 1) :: q) = (twoBlocks skipAttrs).tree.sub ((y + 1) :: q) := rfl
    rw [hn, hm] at this
    rw [Option.some.inj this]

/-- The attribute takes away the hook inside its block, which is at `[0]`. -/
example : ([[], skipAttrs].map fun l => [[0, 0, 0], [1, 0, 0], [2]].map fun p =>
      ((outBlocks l).tree.sub p).map fun n => n.marks.map (·.1.kind)) =
    [[some [.question], some [], some [.tail]], [some [], some [], some [.tail]]] := by
  decide +kernel

end

end Hooq
