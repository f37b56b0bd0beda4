import Verif.Proof.Count
import Verif.Props.Placement

/-!
# Hook numbers (C11)

`numbered` selects the targets of one kind that are reached and not skipped, whether
or not `hook_targets` enables them; `postorder` lists positions in the order in which
the walk completes them.
-/

namespace Hooq

/-- The targets of kind `k` of an expansion that take a number, in order. -/
def numberedTargets (env : Env) (s : Settings) (i i' : Item) (k : Kind) : List (List Nat) :=
  i.tree.postorder.filter (numbered env s [] i.tree i'.tree k)

mutual
theorem mem_postorder : ∀ (t : RTree) (p : List Nat), p ∈ t.postorder ↔ (t.sub p).isSome
  | .mk d ms ks, p => by
    rw [RTree.postorder, List.mem_append, mem_postorderFrom ks 0 p]
    cases p with
    | nil => simp [RTree.sub]
    | cons i p =>
      simp only [Nat.zero_add, List.cons.injEq, List.mem_singleton, reduceCtorEq, or_false]
      constructor
      · rintro ⟨j, q, k, ⟨rfl, rfl⟩, hk, hs⟩
        simpa [RTree.sub, hk] using hs
      · intro h
        simp only [RTree.sub] at h
        cases hk : ks[i]? with
        | none => simp [hk] at h
        | some k => rw [hk] at h; exact ⟨i, p, k, ⟨rfl, rfl⟩, hk, h⟩
theorem mem_postorderFrom : ∀ (ks : List RTree) (n : Nat) (p : List Nat),
    p ∈ postorderFrom n ks ↔ ∃ i q k, p = (n + i) :: q ∧ ks[i]? = some k ∧ (k.sub q).isSome
  | [], n, p => by simp [postorderFrom]
  | k :: ks, n, p => by
    rw [postorderFrom, List.mem_append, List.mem_map, mem_postorderFrom ks (n + 1) p]
    constructor
    · rintro (⟨q, hq, rfl⟩ | ⟨i, q, k', rfl, h1, h2⟩)
      · exact ⟨0, q, k, rfl, rfl, (mem_postorder k q).1 hq⟩
      · exact ⟨i + 1, q, k', by congr 1; omega, by simpa using h1, h2⟩
    · rintro ⟨i, q, k', rfl, h1, h2⟩
      cases i with
      | zero =>
        simp only [List.getElem?_cons_zero, Option.some.injEq] at h1
        subst h1
        exact .inl ⟨q, (mem_postorder _ q).2 h2, rfl⟩
      | succ i => exact .inr ⟨i, q, k', by congr 1; omega, by simpa using h1, h2⟩
end

mutual
theorem nodup_postorder : ∀ t : RTree, t.postorder.Nodup
  | .mk d ms ks => by
    rw [RTree.postorder, List.nodup_append]
    refine ⟨nodup_postorderFrom ks 0, by simp, fun a ha b hb => ?_⟩
    rw [mem_postorderFrom] at ha
    obtain ⟨i, q, k, rfl, -, -⟩ := ha
    simp at hb
    simp [hb]
theorem nodup_postorderFrom : ∀ (ks : List RTree) (n : Nat), (postorderFrom n ks).Nodup
  | [], n => by simp [postorderFrom]
  | k :: ks, n => by
    rw [postorderFrom, List.nodup_append]
    refine ⟨(nodup_postorder k).map (fun a b h => (List.cons.inj h).2), nodup_postorderFrom ks (n + 1),
      fun a ha b hb => ?_⟩
    rw [mem_postorderFrom] at hb
    obtain ⟨i, q, k, rfl, -, -⟩ := hb
    obtain ⟨r, -, rfl⟩ := List.mem_map.1 ha
    intro h
    have := (List.cons.inj h).1
    omega
end

/-- Children come before their parents in `postorder`. -/
theorem postorder_child {t : RTree} {p : List Nat} {i : Nat} (h : (t.sub (p ++ [i])).isSome) :
    ∃ l1 l2 l3, t.postorder = l1 ++ (p ++ [i]) :: l2 ++ p :: l3 := by
  suffices this : ∀ p t, (RTree.sub t (p ++ [i])).isSome →
      ∃ l1 l2 l3, t.postorder = l1 ++ (p ++ [i]) :: l2 ++ p :: l3 from this p t h
  intro p
  induction p with
  | nil =>
    rintro ⟨d, ms, ks⟩ h
    have hm : [i] ∈ postorderFrom 0 ks := by
      have := (mem_postorder (.mk d ms ks) ([] ++ [i])).2 h
      rw [RTree.postorder, List.mem_append] at this
      simpa using this
    obtain ⟨a, b, hab⟩ := List.append_of_mem hm
    exact ⟨a, b, [], by rw [RTree.postorder, hab]; simp⟩
  | cons j p ih =>
    rintro ⟨d, ms, ks⟩ h
    simp only [List.cons_append, RTree.sub] at h
    cases hk : ks[j]? with
    | none => simp [hk] at h
    | some k =>
      simp only [hk] at h
      obtain ⟨l1, l2, l3, hl⟩ := ih k h
      have : ∀ (ks : List RTree) (n j : Nat), ks[j]? = some k → ∃ a b,
          postorderFrom n ks = a ++ k.postorder.map ((n + j) :: ·) ++ b := by
        intro ks
        induction ks with
        | nil => simp
        | cons k0 ks ihk =>
          intro n j hj
          cases j with
          | zero =>
            simp only [List.getElem?_cons_zero, Option.some.injEq] at hj
            subst hj
            exact ⟨[], postorderFrom (n + 1) ks, by simp [postorderFrom]⟩
          | succ j =>
            obtain ⟨a, b, hab⟩ := ihk (n + 1) j (by simpa using hj)
            refine ⟨k0.postorder.map (n :: ·) ++ a, b, ?_⟩
            rw [postorderFrom, hab, show n + 1 + j = n + (j + 1) by omega]
            simp
      obtain ⟨a, b, hab⟩ := this ks 0 j hk
      refine ⟨a ++ l1.map (j :: ·), l2.map (j :: ·), l3.map (j :: ·) ++ b ++ [[]], ?_⟩
      rw [RTree.postorder, hab, hl]
      simp

/-- C11.  The `j`-th target of a kind that is reached and not skipped gets the number
`j + 1` (numbers start at 1), in the order in which the walk completes the targets
(inner before outer, left before right).  Targets switched off by `hook_targets` are
in the list and so use up a number. -/
theorem C11_numbers {env : Env} {args : List Meta} {s : Settings} {i i' : Item} {uses : List Path}
    (hs : rootSettings env args = .ok s) (h : hooqImpls env args i = .ok (uses, i')) (k : Kind)
    {j : Nat} {p : List Nat} (hj : (numberedTargets env s i i' k)[j]? = some p) :
    ∀ hk ∈ hooksOf i'.tree k p, hk.count = j + 1 := by
  obtain ⟨c', hw⟩ := expansion hs h
  have := gwalk_numbered i.tree (wfItem {} i) (agrees_new env s)
    (by intro hv; rw [reached_cons]; simp [hv, reached]) hw k
  intro hk hm
  rw [this.2 j p hj hk hm]
  cases k <;> simp [Counter.get]

/-- C11.  Every hook that the expansion inserts belongs to one of the numbered
targets. -/
theorem C11_hook_is_numbered {env : Env} {args : List Meta} {s : Settings} {i i' : Item}
    {uses : List Path} (hs : rootSettings env args = .ok s) (hb : s.bindings.keys.Nodup)
    (h : hooqImpls env args i = .ok (uses, i')) {p : List Nat} {d : Data} {up : List Data}
    (hu : i.chain p = some (d :: up)) (hr : reached env s (d :: up) = true) {n' : RTree}
    (hn : i'.tree.sub p = some n') {m : HookData × RTree} (hm : m ∈ n'.marks) :
    ∃ q ∈ numberedTargets env s i i' m.1.kind, m.1 ∈ hooksOf i'.tree m.1.kind q ∧
      p = match m.1.kind with
        | .tail => q
        | _ => q ++ [0] := by
  obtain ⟨c', hw⟩ := expansion hs h
  obtain ⟨n1, h1, -, h2⟩ := marks_at (wfItem {} i) hb (agrees_new env s) hw hu hr
  rw [hn] at h1
  obtain rfl := Option.some.inj h1
  have hf := h2 m hm
  have hin : ∀ {q : List Nat} {u : List Data}, i.chain q = some u → q ∈ i.tree.postorder := by
    intro q u hq
    rw [mem_postorder]
    obtain ⟨n, _, hn, -⟩ := upFrom_sub hq
    simp [hn]
  simp only [HookFact] at hf
  split at hf
  · -- tail
    rename_i d2 up2 heq hkd
    obtain ⟨rfl, rfl⟩ := List.cons.inj heq
    obtain ⟨n, n2, g1, g2, g3⟩ := tail_at hb (agrees_new env s) hw hu hr
    rw [hn] at g2
    obtain rfl := Option.some.inj g2
    have hmt : m ∈ n'.tailMarks := by
      simp only [RTree.tailMarks, List.mem_filter]
      exact ⟨hm, by simp [hkd]⟩
    refine ⟨p, ?_, ?_, by simp [hkd]⟩
    · rw [hkd, numberedTargets, List.mem_filter]
      refine ⟨hin hu, ?_⟩
      simp only [numbered, hu, hn, hr, Bool.true_and]
      cases htl : d.edge.tail with
      | none => simp only [htl] at g3; rw [g3] at hmt; simp at hmt
      | some tk =>
        simp only [htl] at g3
        split at g3
        · rename_i hc
          obtain ⟨hc1, hc2⟩ := hc
          simp only [hookedAt, Bool.and_eq_true] at hc2
          simp only [Bool.and_eq_true, bne_iff_ne]
          exact ⟨hc2.1.1, hc1, hc2.2⟩
        · rw [g3] at hmt; simp at hmt
    · simp only [hooksOf, hkd, hn, RTree.hooks, List.mem_filter, List.mem_map]
      exact ⟨⟨m, hm, rfl⟩, by simp [hkd]⟩
  · -- question
    rename_i d1 d2 rest heq hkd
    obtain ⟨rfl, rfl⟩ := List.cons.inj heq
    obtain ⟨q, b, c, htag, hh, -⟩ := hf
    rcases List.eq_nil_or_concat p with rfl | ⟨p0, j, rfl⟩
    · obtain ⟨l, hl⟩ := upFrom_suffix hu
      cases hti : i.tree
      simp [Item.chain, hti, RTree.upFrom] at hu
    rw [List.concat_eq_append] at hu hn ⊢
    have hup := upFrom_snoc hu
    have hru := reached_tail hr
    obtain ⟨n, n2, k', g1, g2, g3, g4, g5, g6, g7⟩ :=
      question_at (wfItem {} i) hb (agrees_new env s) hw hup htag hru
    have hk0 : n2.kids[j]? = some n' := by
      rw [sub_append g2] at hn
      obtain ⟨d5, m5, k5⟩ := n2
      simp only [RTree.sub] at hn
      cases hkj : k5[j]? with
      | none => simp [hkj] at hn
      | some a => simp only [hkj] at hn; cases a; simpa [RTree.sub, hkj] using hn
    rw [g5] at hk0
    cases j with
    | succ j => simp at hk0
    | zero =>
      refine ⟨p0, ?_, ?_, by simp [hkd]⟩
      · rw [hkd, numberedTargets, List.mem_filter]
        refine ⟨hin hup, ?_⟩
        simp only [hookedAt, Bool.and_eq_true] at hh
        simp only [numbered, hup, g2, hru, hh.1, htag]
        rfl
      · simp only [hooksOf, hkd, hn, RTree.hooks, List.mem_filter, List.mem_map]
        exact ⟨⟨m, hm, rfl⟩, by simp [hkd]⟩
  · -- return
    rename_i d1 d2 rest heq hkd
    obtain ⟨rfl, rfl⟩ := List.cons.inj heq
    obtain ⟨c, htag, hh, -⟩ := hf
    rcases List.eq_nil_or_concat p with rfl | ⟨p0, j, rfl⟩
    · cases hti : i.tree
      simp [Item.chain, hti, RTree.upFrom] at hu
    rw [List.concat_eq_append] at hu hn ⊢
    have hup := upFrom_snoc hu
    have hru := reached_tail hr
    obtain ⟨n, n2, g1, g2, g3, g4⟩ :=
      return_at (wfItem {} i) hb (agrees_new env s) hw hup htag hru
    have hk0 : n2.kids[j]? = some n' := by
      rw [sub_append g2] at hn
      obtain ⟨d5, m5, k5⟩ := n2
      simp only [RTree.sub] at hn
      cases hkj : k5[j]? with
      | none => simp [hkj] at hn
      | some a => simp only [hkj] at hn; cases a; simpa [RTree.sub, hkj] using hn
    rcases g4 with ⟨-, g4⟩ | ⟨k, k', -, g5, g6, g7⟩
    · rw [g4] at hk0; simp at hk0
    rw [g5] at hk0
    cases j with
    | succ j => simp at hk0
    | zero =>
      simp only [List.getElem?_cons_zero, Option.some.injEq] at hk0
      subst hk0
      refine ⟨p0, ?_, ?_, by simp [hkd]⟩
      · rw [hkd, numberedTargets, List.mem_filter]
        refine ⟨hin hup, ?_⟩
        split at g7
        · rename_i hc
          simp only [hookedAt, Bool.and_eq_true] at hc
          simp only [numbered, hup, g2, hru, hc.1.1, htag, g5, hc.2]
          rfl
        · rw [g7] at hm; simp at hm
      · simp only [hooksOf, hkd, hn, RTree.hooks, List.mem_filter, List.mem_map]
        exact ⟨⟨m, hm, rfl⟩, by simp [hkd]⟩
  · exact hf.elim

/-- C11.  Two inserted hooks of one kind never share a number. -/
theorem C11_unique {env : Env} {args : List Meta} {s : Settings} {i i' : Item} {uses : List Path}
    (hs : rootSettings env args = .ok s) (hb : s.bindings.keys.Nodup)
    (h : hooqImpls env args i = .ok (uses, i')) {p1 p2 : List Nat} {d1 d2 : Data} {up1 up2 : List Data}
    (hu1 : i.chain p1 = some (d1 :: up1)) (hu2 : i.chain p2 = some (d2 :: up2))
    (hr1 : reached env s (d1 :: up1) = true) (hr2 : reached env s (d2 :: up2) = true) {n1 n2 : RTree}
    (hn1 : i'.tree.sub p1 = some n1) (hn2 : i'.tree.sub p2 = some n2) {m1 m2 : HookData × RTree}
    (hm1 : m1 ∈ n1.marks) (hm2 : m2 ∈ n2.marks) (hk : m1.1.kind = m2.1.kind)
    (hc : m1.1.count = m2.1.count) : p1 = p2 ∧ m1 = m2 := by
  obtain ⟨q1, a1, b1, e1⟩ := C11_hook_is_numbered hs hb h hu1 hr1 hn1 hm1
  obtain ⟨q2, a2, b2, e2⟩ := C11_hook_is_numbered hs hb h hu2 hr2 hn2 hm2
  obtain ⟨j1, f1⟩ := List.mem_iff_getElem?.1 a1
  obtain ⟨j2, f2⟩ := List.mem_iff_getElem?.1 a2
  have g1 := C11_numbers hs h _ f1 _ b1
  have g2 := C11_numbers hs h _ f2 _ b2
  rw [← hk] at f2 e2
  have : j1 = j2 := by omega
  subst this
  rw [f1] at f2
  obtain rfl := Option.some.inj f2
  have hp : p1 = p2 := by rw [e1, e2]
  subst hp
  refine ⟨rfl, ?_⟩
  rw [hn1] at hn2
  obtain rfl := Option.some.inj hn2
  obtain ⟨c', hw⟩ := expansion hs h
  obtain ⟨n3, h3, h4, -⟩ := marks_at (wfItem {} i) hb (agrees_new env s) hw hu1 hr1
  rw [hn1] at h3
  obtain rfl := Option.some.inj h3
  cases hms : n1.marks with
  | nil => simp [hms] at hm1
  | cons a l =>
    rw [hms] at h4 hm1 hm2
    have : l = [] := by cases l with
      | nil => rfl
      | cons _ _ => simp at h4
    subst this
    simp only [List.mem_singleton] at hm1 hm2
    rw [hm1, hm2]

section
open Ex
set_option maxRecDepth 10000

/-- `fn f() -> Result { g(a?)?; #[hooq::skip] b?; #[hooq::hook_targets("return")] { c?; } d?; }` -/
def Ex.counted : Item :=
  .fn [] { ident := "f", output := result, text := "fn f () -> Result" }
    [.expr (quest [] (call "g" [quest [] (var "a" 2) 2] 2) 2) true,
     .expr (quest [.path (hooqPath "skip")] (var "b" 3) 3) true,
     .expr (.mk [.list (hooqPath "hook_targets") [tkStr "return"]] (sp 4 1)
      (.block "" [.expr (quest [] (var "c" 4) 4) true])) true,
     .expr (quest [] (var "d" 5) 5) true]

/-- In the sample `a?` is the first `?`, `g(..)?` the second, `c?` the third although
switched off, `d?` the fourth; `b?` is not counted. -/
example : ∃ i', rootSettings env [] = .ok settings ∧ settings.bindings.keys.Nodup ∧
    hooqImpls env [] Ex.counted = .ok ([], i') ∧
    numberedTargets env settings Ex.counted i' .question = [[0, 0, 1], [0], [2, 0], [3]] ∧
    (hooksOf i'.tree .question [0, 0, 1]).map (·.count) = [1] ∧
    (hooksOf i'.tree .question [2, 0]).map (·.count) = [] ∧
    (hooksOf i'.tree .question [3]).map (·.count) = [4] :=
  ⟨_, rfl, List.nodup_nil, rfl, rfl, rfl, rfl, rfl⟩

end

end Hooq
