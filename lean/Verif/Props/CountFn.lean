import Verif.Props.Count
import Verif.Spec.CountFn

/-!
# Hook numbers inside a function (C80)
-/

namespace Hooq

theorem postorderFrom_split {k : RTree} : ∀ (ks : List RTree) (n j : Nat), ks[j]? = some k →
    ∃ a b, postorderFrom n ks = a ++ k.postorder.map ((n + j) :: ·) ++ b ∧
      (∀ q ∈ a, ∃ m q', q = m :: q' ∧ m < n + j) ∧ ∀ q ∈ b, ∃ m q', q = m :: q' ∧ n + j < m := by
  intro ks
  induction ks with
  | nil => simp
  | cons k0 ks ihk =>
    intro n j hj
    cases j with
    | zero =>
      simp only [List.getElem?_cons_zero, Option.some.injEq] at hj
      subst hj
      refine ⟨[], postorderFrom (n + 1) ks, by simp [postorderFrom], by simp, fun q hq => ?_⟩
      obtain ⟨i, q', k', rfl, -, -⟩ := (mem_postorderFrom ks (n + 1) q).1 hq
      exact ⟨_, _, rfl, by omega⟩
    | succ j =>
      obtain ⟨a, b, hab, ha, hb⟩ := ihk (n + 1) j (by simpa using hj)
      refine ⟨k0.postorder.map (n :: ·) ++ a, b, ?_, fun q hq => ?_, fun q hq => ?_⟩
      · rw [postorderFrom, hab, show n + 1 + j = n + (j + 1) by omega]
        simp
      · rcases List.mem_append.1 hq with hq | hq
        · obtain ⟨r, -, rfl⟩ := List.mem_map.1 hq
          exact ⟨_, _, rfl, by omega⟩
        · obtain ⟨m, q', rfl, hm⟩ := ha q hq
          exact ⟨_, _, rfl, by omega⟩
      · obtain ⟨m, q', rfl, hm⟩ := hb q hq
        exact ⟨_, _, rfl, by omega⟩

theorem standsBefore_append (f q : List Nat) : standsBefore (f ++ q) f = false := by
  induction f with
  | nil => cases q <;> rfl
  | cons a f ih => simp [standsBefore, ih]

/-- The positions inside a part of the code follow each other in the order of completion; in
front of them are those that stand before the part. -/
theorem postorder_part : ∀ (f : List Nat) (t n : RTree), t.sub f = some n →
    ∃ a b, t.postorder = a ++ n.postorder.map (f ++ ·) ++ b ∧
      (∀ q ∈ a, ¬ f <+: q ∧ standsBefore q f = true) ∧ ∀ q ∈ b, ¬ f <+: q ∧ standsBefore q f = false := by
  intro f
  induction f with
  | nil =>
    rintro ⟨d, ms, ks⟩ n h
    simp only [RTree.sub, Option.some.injEq] at h
    subst h
    exact ⟨[], [], by simp, by simp, by simp⟩
  | cons j f ih =>
    rintro ⟨d, ms, ks⟩ n h
    simp only [RTree.sub] at h
    cases hk : ks[j]? with
    | none => simp [hk] at h
    | some k =>
      simp only [hk] at h
      obtain ⟨a, b, hab, ha, hb⟩ := ih k n h
      obtain ⟨a', b', hab', ha', hb'⟩ := postorderFrom_split ks 0 j hk
      simp only [Nat.zero_add] at hab' ha' hb'
      refine ⟨a' ++ a.map (j :: ·), b.map (j :: ·) ++ b' ++ [[]], ?_, fun q hq => ?_, fun q hq => ?_⟩
      · rw [RTree.postorder, hab', hab]
        simp
      · rcases List.mem_append.1 hq with hq | hq
        · obtain ⟨m, q', rfl, hm⟩ := ha' q hq
          exact ⟨fun h => by have := (List.cons_prefix_cons.1 h).1; omega, by simp [standsBefore, hm]⟩
        · obtain ⟨r, hr, rfl⟩ := List.mem_map.1 hq
          obtain ⟨h1, h2⟩ := ha r hr
          exact ⟨fun h => h1 (List.cons_prefix_cons.1 h).2, by simp [standsBefore, h2]⟩
      · rcases List.mem_append.1 hq with hq | hq
        · rcases List.mem_append.1 hq with hq | hq
          · obtain ⟨r, hr, rfl⟩ := List.mem_map.1 hq
            obtain ⟨h1, h2⟩ := hb r hr
            exact ⟨fun h => h1 (List.cons_prefix_cons.1 h).2, by simp [standsBefore, h2]⟩
          · obtain ⟨m, q', rfl, hm⟩ := hb' q hq
            refine ⟨fun h => by have := (List.cons_prefix_cons.1 h).1; omega, ?_⟩
            have h1 : ¬ m < j := by omega
            have h2 : m ≠ j := by omega
            simp [standsBefore, h1, h2]
        · obtain rfl := List.mem_singleton.1 hq
          exact ⟨by simp, rfl⟩

/-- The targets of kind `k` inside the part at `f` that take a number, in order. -/
def targetsInside (env : Env) (s : Settings) (i i' : Item) (k : Kind) (f : List Nat) : List (List Nat) :=
  (numberedTargets env s i i' k).filter fun q => f.isPrefixOf q

/-- The number of targets of kind `k` that take a number and stand before the part at `f`. -/
def targetsBefore (env : Env) (s : Settings) (i i' : Item) (k : Kind) (f : List Nat) : Nat :=
  (numberedTargets env s i i' k).countP fun q => standsBefore q f

/-- C80.  The targets of a kind inside a function, or any other part of the code, are numbered
one after the other, beginning behind the number of those of the same expansion that stand
before it. -/
theorem C80_within {env : Env} {args : List Meta} {s : Settings} {i i' : Item} {uses : List Path}
    (hs : rootSettings env args = .ok s) (h : hooqImpls env args i = .ok (uses, i')) (k : Kind)
    (f : List Nat) {j : Nat} {p : List Nat} (hj : (targetsInside env s i i' k f)[j]? = some p) :
    ∀ hk ∈ hooksOf i'.tree k p, hk.count = targetsBefore env s i i' k f + j + 1 := by
  have hp : p ∈ targetsInside env s i i' k f := List.mem_of_getElem? hj
  obtain ⟨hp1, hp2⟩ := List.mem_filter.1 hp
  obtain ⟨hp3, -⟩ := List.mem_filter.1 hp1
  obtain ⟨r, rfl⟩ : f <+: p := by simpa using hp2
  obtain ⟨n, hn⟩ : ∃ n, i.tree.sub f = some n := by
    rw [mem_postorder] at hp3
    cases hf : i.tree.sub f with
    | some n => exact ⟨n, rfl⟩
    | none =>
      exfalso
      have : ∀ (f r : List Nat) (t : RTree), t.sub f = none → t.sub (f ++ r) = none := by
        intro f
        induction f with
        | nil => rintro r ⟨d, ms, ks⟩ h; simp [RTree.sub] at h
        | cons a f ih =>
          rintro r ⟨d, ms, ks⟩ h
          simp only [List.cons_append, RTree.sub] at h ⊢
          cases hk : ks[a]? with
          | none => rfl
          | some k => simp only [hk] at h ⊢; exact ih r k h
      rw [this f r _ hf] at hp3
      simp at hp3
  obtain ⟨a, b, hab, ha, hb⟩ := postorder_part f i.tree n hn
  have hin : ∀ q ∈ n.postorder.map (f ++ ·), f.isPrefixOf q = true ∧ standsBefore q f = false := by
    intro q hq
    obtain ⟨r, -, rfl⟩ := List.mem_map.1 hq
    exact ⟨by simp, standsBefore_append f r⟩
  have e1 : targetsInside env s i i' k f =
      (n.postorder.map (f ++ ·)).filter (numbered env s [] i.tree i'.tree k) := by
    simp only [targetsInside, numberedTargets, hab, List.filter_append, List.filter_filter]
    rw [(List.filter_eq_nil_iff (l := a)).2 fun q hq => by simp [(ha q hq).1],
      (List.filter_eq_nil_iff (l := b)).2 fun q hq => by simp [(hb q hq).1], List.nil_append, List.append_nil]
    refine List.filter_congr fun q hq => by rw [(hin q hq).1, Bool.true_and]
  have e2 : targetsBefore env s i i' k f = (a.filter (numbered env s [] i.tree i'.tree k)).length := by
    simp only [targetsBefore, numberedTargets, hab, List.filter_append, List.countP_append]
    rw [List.countP_eq_length.2 fun q hq => (ha q (List.mem_filter.1 hq).1).2,
      List.countP_eq_zero.2 fun q hq => by simp [(hin q (List.mem_filter.1 hq).1).2],
      List.countP_eq_zero.2 fun q hq => by simp [(hb q (List.mem_filter.1 hq).1).2]]
    rfl
  have e3 : numberedTargets env s i i' k = a.filter (numbered env s [] i.tree i'.tree k) ++
      targetsInside env s i i' k f ++ b.filter (numbered env s [] i.tree i'.tree k) := by
    rw [e1, numberedTargets, hab]
    simp only [List.filter_append]
  have hlt : j < (targetsInside env s i i' k f).length := (List.getElem?_eq_some_iff.1 hj).1
  rw [e2]
  refine C11_numbers hs h k ?_
  rw [e3, List.append_assoc, List.getElem?_append_right (by omega), Nat.add_sub_cancel_left,
    List.getElem?_append_left hlt, hj]

/-- C80.  So the numbers in a function begin with 1 if no target of the kind stands before it in
the expansion. -/
theorem C80_first {env : Env} {args : List Meta} {s : Settings} {i i' : Item} {uses : List Path}
    (hs : rootSettings env args = .ok s) (h : hooqImpls env args i = .ok (uses, i')) (k : Kind) (f : List Nat)
    (hf : ∀ q ∈ numberedTargets env s i i' k, standsBefore q f = false) {j : Nat} {p : List Nat}
    (hj : (targetsInside env s i i' k f)[j]? = some p) : ∀ hk ∈ hooksOf i'.tree k p, hk.count = j + 1 := by
  intro hk hm
  have h0 : targetsBefore env s i i' k f = 0 := List.countP_eq_zero.2 fun q hq => by simp [hf q hq]
  have := C80_within hs h k f hj hk hm
  omega

/-- C80.  Otherwise they do not: no target in the function has the number it has there. -/
theorem C80_later {env : Env} {args : List Meta} {s : Settings} {i i' : Item} {uses : List Path}
    (hs : rootSettings env args = .ok s) (h : hooqImpls env args i = .ok (uses, i')) (k : Kind) (f : List Nat)
    {q : List Nat} (hq : q ∈ numberedTargets env s i i' k) (hf : standsBefore q f = true) {j : Nat} {p : List Nat}
    (hj : (targetsInside env s i i' k f)[j]? = some p) : ∀ hk ∈ hooksOf i'.tree k p, j + 1 < hk.count := by
  intro hk hm
  have h0 : 0 < targetsBefore env s i i' k f := List.countP_pos_iff.2 ⟨q, hq, hf⟩
  have := C80_within hs h k f hj hk hm
  omega

section
open Ex
set_option maxRecDepth 10000

/-- `mod m { fn f() -> Result { a?; } fn g() -> Result { b?; c?; } }` -/
def Ex.twoFns : Item :=
  .mod_ [] "m" [
    .fn [] { ident := "f", output := result, text := "fn f () -> Result" } [.expr (quest [] (var "a" 2) 2) true],
    .fn [] { ident := "g", output := result, text := "fn g () -> Result" }
      [.expr (quest [] (var "b" 3) 3) true, .expr (quest [] (var "c" 4) 4) true]]

/-- The first `?` of the second function is the second of the expansion. -/
example : ∃ i', rootSettings env [] = .ok settings ∧ hooqImpls env [] Ex.twoFns = .ok ([], i') ∧
    targetsInside env settings Ex.twoFns i' .question [1] = [[1, 0], [1, 1]] ∧
    targetsBefore env settings Ex.twoFns i' .question [1] = 1 ∧
    (hooksOf i'.tree .question [1, 0]).map (·.count) = [2] ∧
    targetsBefore env settings Ex.twoFns i' .question [0] = 0 :=
  ⟨_, rfl, rfl, rfl, rfl, rfl, rfl⟩

end

end Hooq
