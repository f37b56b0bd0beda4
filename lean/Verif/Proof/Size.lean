import Verif.Spec.Size
import Verif.Proof.Meaning

/-!
# The size of the walked tree
-/

namespace Hooq

theorem marksSize_append (Z : Sizes) (m : HookData × RTree) : ∀ (ms : List (HookData × RTree)) (n : Nat),
    marksSize Z n (ms ++ [m]) = markSize Z (marksSize Z n ms) m
  | [], n => by simp [marksSize]
  | a :: ms, n => by simp only [List.cons_append, marksSize]; exact marksSize_append Z m ms _

theorem size_addMark (Z : Sizes) (t : RTree) (m : HookData × RTree) :
    (t.addMark m).size Z = m.1.size (t.size Z) (m.2.size Z) := by
  obtain ⟨hk, src⟩ := m
  cases t with
  | mk d ms ks => simp only [RTree.addMark, RTree.size, marksSize_append, markSize]

theorem size_plain (Z : Sizes) (d : Data) (ks : List RTree) :
    (RTree.mk d [] ks).size Z = Z.own d + sizeList Z ks := by simp only [RTree.size, marksSize]

theorem small_size {K c : Nat} {hk : HookData} (h : hk.Small K c) (n s : Nat) :
    hk.size n s ≤ n + (K + c * s) := by
  simp only [HookData.size, h.mode]
  exact Nat.add_le_add_left (h.text n s) n

theorem sizeList_markHead {Z : Sizes} {K c : Nat} {m : HookData × RTree} {ks : List RTree}
    (h : AllMarksL (fun m => m.1.Small K c) (markHead m ks)) :
    AllMarksL (fun m => m.1.Small K c) ks ∧
      sizeList Z (markHead m ks) ≤ sizeList Z ks + (K + c * m.2.size Z) := by
  cases ks with
  | nil => exact ⟨trivial, by simp [markHead]⟩
  | cons k ks =>
    simp only [markHead, AllMarksL, allMarks_addMark] at h
    refine ⟨⟨h.1.1, h.2⟩, ?_⟩
    have := small_size h.1.2 (k.size Z) (m.2.size Z)
    simp only [markHead, sizeList, size_addMark]
    omega

theorem sum_filter_le {α : Type} (f : α → Nat) (p : α → Bool) (l : List α) :
    ((l.filter p).map f).sum ≤ (l.map f).sum := by
  induction l with
  | nil => simp
  | cons a l ih => simp only [List.filter_cons]; split <;> simp <;> omega

theorem kept_size (Z : Sizes) (d : Data) : (d.kept.map Z.attr).sum ≤ (d.attrs.map Z.attr).sum := by
  simp only [Data.kept]
  split
  · exact sum_filter_le _ _ _
  · split
    · exact Nat.le_refl _
    · exact sum_filter_le _ _ _
  · exact Nat.le_refl _
  · simp

/-- The `?` and `return` step adds one hook at most. -/
theorem gtarget_size {Z : Sizes} {K c : Nat} {env : Env} {h : Handled} {d : Data} {kids kids' : List RTree}
    {t : RTree} {x y : Counter} (ha : h.attrs = d.kept) (hg : gtarget env h d kids kids' x = .ok (t, y))
    (hm : t.AllMarks fun m => m.1.Small K c) :
    AllMarksL (fun m => m.1.Small K c) kids' ∧
      t.size Z ≤ Z.own d + sizeList Z kids' + (K + c * (Z.own d + sizeList Z kids)) := by
  have hkept := kept_size Z d
  have hsrc : (RTree.mk { d with edge := {}, attrs := h.attrs } [] kids).size Z ≤ Z.own d + sizeList Z kids := by
    rw [size_plain, ha]; simp only [Sizes.own]; omega
  have hcs := Nat.mul_le_mul_left c hsrc
  have hown : Z.own { d with attrs := h.attrs } ≤ Z.own d := by rw [ha]; simp only [Sizes.own]; omega
  simp only [gtarget] at hg
  cases htag : d.tag with
  | question q b =>
    simp only [htag] at hg
    obtain ⟨o, c1, h1, h2⟩ := W.bind_ok hg
    cases o with
    | none =>
      obtain ⟨rfl, -⟩ := W.pure_ok h2
      rw [size_plain]
      refine ⟨hm.2, ?_⟩
      simp only [Sizes.own, htag] at *
      omega
    | some hk =>
      simp only at h2
      split at h2
      · obtain ⟨rfl, -⟩ := W.pure_ok h2
        obtain ⟨k1, k2⟩ := sizeList_markHead (Z := Z) hm.2
        have hq := Z.consumed q b d.span
        rw [size_plain]
        refine ⟨k1, ?_⟩
        simp only [Sizes.own, htag, List.map_nil, List.sum_nil] at *
        omega
      · obtain ⟨rfl, -⟩ := W.pure_ok h2
        obtain ⟨k1, k2⟩ := sizeList_markHead (Z := Z) hm.2
        rw [size_plain]
        refine ⟨k1, ?_⟩
        simp only [Sizes.own, htag] at *
        omega
  | ret =>
    simp only [htag] at hg
    cases kids' with
    | nil =>
      obtain ⟨rfl, -⟩ := W.pure_ok hg
      rw [size_plain]
      refine ⟨trivial, ?_⟩
      simp only [Sizes.own, htag] at *
      omega
    | cons k ks =>
      simp only at hg
      split at hg
      · obtain ⟨o, c1, h1, h2⟩ := W.bind_ok hg
        cases o with
        | none =>
          obtain ⟨rfl, -⟩ := W.pure_ok h2
          rw [size_plain]
          refine ⟨hm.2, ?_⟩
          simp only [Sizes.own, htag] at *
          omega
        | some hk =>
          obtain ⟨rfl, -⟩ := W.pure_ok h2
          obtain ⟨k1, k2⟩ := sizeList_markHead (Z := Z) hm.2
          rw [size_plain]
          refine ⟨k1, ?_⟩
          simp only [Sizes.own, htag] at *
          omega
      · obtain ⟨rfl, -⟩ := W.pure_ok hg
        rw [size_plain]
        refine ⟨hm.2, ?_⟩
        simp only [Sizes.own, htag] at *
        omega
  | call | path | mac | other =>
    simp only [htag] at hg
    obtain ⟨rfl, -⟩ := W.pure_ok hg
    rw [size_plain]
    refine ⟨hm.2, ?_⟩
    simp only [Sizes.own, htag] at *
    omega

/-- The tail step adds one hook at most. -/
theorem gtail_size {Z : Sizes} {K c : Nat} {env : Env} {h : Handled} {d : Data} {kids : List RTree}
    {t t' : RTree} {x y : Counter} (ha : h.attrs = d.kept) (hg : gtail env h d kids t x = .ok (t', y))
    (hm : t'.AllMarks fun m => m.1.Small K c) :
    t.AllMarks (fun m => m.1.Small K c) ∧
      t'.size Z ≤ t.size Z + (K + c * (Z.own d + sizeList Z kids)) := by
  have hkept := kept_size Z d
  have hsrc : (RTree.mk { d with edge := {}, attrs := h.attrs } [] kids).size Z ≤ Z.own d + sizeList Z kids := by
    rw [size_plain, ha]; simp only [Sizes.own]; omega
  have hcs := Nat.mul_le_mul_left c hsrc
  simp only [gtail] at hg
  cases htl : d.edge.tail with
  | none =>
    simp only [htl] at hg
    obtain ⟨rfl, -⟩ := W.pure_ok hg
    exact ⟨hm, by omega⟩
  | some tk =>
    simp only [htl] at hg
    split at hg
    · obtain ⟨rfl, -⟩ := W.pure_ok hg
      exact ⟨hm, by omega⟩
    · split at hg
      · obtain ⟨o, c1, h1, h2⟩ := W.bind_ok hg
        cases o with
        | none =>
          obtain ⟨rfl, -⟩ := W.pure_ok h2
          exact ⟨hm, by omega⟩
        | some hk =>
          obtain ⟨rfl, -⟩ := W.pure_ok h2
          rw [allMarks_addMark] at hm
          refine ⟨hm.1, ?_⟩
          rw [size_addMark]
          have := small_size hm.2 (t.size Z)
            ((RTree.mk { d with edge := {}, attrs := h.attrs } [] kids).size Z)
          simp only at this ⊢
          omega
      · obtain ⟨rfl, -⟩ := W.pure_ok hg
        exact ⟨hm, by omega⟩

mutual
/-- What the hooks of a tree may add: two at each node. -/
def RTree.room (Z : Sizes) (K c : Nat) : RTree → Nat
  | .mk d _ ks => 2 * (K + c * (Z.own d + sizeList Z ks)) + roomList Z K c ks
/-- The same on lists. -/
def roomList (Z : Sizes) (K c : Nat) : List RTree → Nat
  | [] => 0
  | k :: ks => k.room Z K c + roomList Z K c ks
end

mutual
theorem gwalk_size {Z : Sizes} {K c : Nat} {env : Env} : ∀ (t : RTree) {t' : RTree} {ctx : Ctx} {x y : Counter},
    t.plain → gwalk env ctx t x = .ok (t', y) → t'.AllMarks (fun m => m.1.Small K c) →
    t'.size Z ≤ t.size Z + t.room Z K c
  | .mk d ms kids, t', ctx, x, y, hp, hw, hm => by
    cases hv : d.edge.visit with
    | false =>
      simp only [gwalk, hv, Bool.false_eq_true, if_false] at hw
      rw [← (W.pure_ok hw).1]
      omega
    | true =>
      obtain ⟨-, hd, kids', ck, t, ct, h1, h2, h3, h4⟩ := gwalk_inv hv hw
      have ha := (handle_kept h1).1
      obtain ⟨m1, b1⟩ := gtail_size (Z := Z) ha h4 hm
      obtain ⟨m2, b2⟩ := gtarget_size (Z := Z) ha h3 m1
      simp only [RTree.plain] at hp
      obtain ⟨rfl, hp⟩ := hp
      have hk : sizeList Z kids' ≤ sizeList Z kids + roomList Z K c kids := by
        simp only [gopen] at h2
        split at h2
        · exact gwalkList_size kids hp h2 m2
        · rw [← (W.pure_ok h2).1]; omega
      rw [size_plain]
      simp only [RTree.room]
      omega
theorem gwalkList_size {Z : Sizes} {K c : Nat} {env : Env} : ∀ (ts : List RTree) {ts' : List RTree} {ctx : Ctx}
    {x y : Counter}, RTree.plains ts → gwalkList env ctx ts x = .ok (ts', y) →
    AllMarksL (fun m => m.1.Small K c) ts' → sizeList Z ts' ≤ sizeList Z ts + roomList Z K c ts
  | [], ts', ctx, x, y, _, hw, _ => by
    simp only [gwalkList] at hw
    rw [← (W.pure_ok hw).1]
    simp [sizeList]
  | t :: ts, ts', ctx, x, y, hp, hw, hm => by
    simp only [gwalkList] at hw
    simp only [RTree.plains] at hp
    obtain ⟨t1, c1, h1, hw⟩ := W.bind_ok hw
    obtain ⟨t2, c2, h2, hw⟩ := W.bind_ok hw
    obtain ⟨rfl, -⟩ := W.pure_ok hw
    have i1 := gwalk_size (Z := Z) t hp.1 h1 hm.1
    have i2 := gwalkList_size (Z := Z) ts hp.2 h2 hm.2
    simp only [sizeList, roomList]
    omega
end

mutual
theorem room_le (Z : Sizes) (K c : Nat) : ∀ {t : RTree} {n : Nat}, t.plain → t.size Z ≤ n →
    t.room Z K c ≤ 2 * t.size Z * (K + c * n)
  | .mk d ms ks, n, hp, hn => by
    simp only [RTree.plain] at hp
    obtain ⟨rfl, hp⟩ := hp
    rw [size_plain] at hn ⊢
    have h1 : 1 ≤ Z.own d := Nat.le_trans (Z.pos _ _) (Nat.le_add_right _ _)
    have h2 := roomList_le Z K c hp (n := n) (by omega)
    have h3 : K + c * (Z.own d + sizeList Z ks) ≤ K + c * n :=
      Nat.add_le_add_left (Nat.mul_le_mul_left c hn) K
    have h4 : 2 * (K + c * n) ≤ 2 * Z.own d * (K + c * n) := Nat.mul_le_mul_right _ (by omega)
    simp only [RTree.room, Nat.mul_add, Nat.add_mul] at *
    omega
theorem roomList_le (Z : Sizes) (K c : Nat) : ∀ {ts : List RTree} {n : Nat}, RTree.plains ts →
    sizeList Z ts ≤ n → roomList Z K c ts ≤ 2 * sizeList Z ts * (K + c * n)
  | [], _, _, _ => by simp [roomList]
  | t :: ts, n, hp, hn => by
    simp only [RTree.plains] at hp
    simp only [sizeList] at hn ⊢
    have h1 := room_le Z K c hp.1 (n := n) (by omega)
    have h2 := roomList_le Z K c hp.2 (n := n) (by omega)
    simp only [roomList]
    rw [Nat.mul_add 2, Nat.add_mul]
    omega
end

end Hooq
