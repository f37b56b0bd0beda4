import Verif.Props.Exact

/-!
# C07 on whole expansions
-/

namespace Hooq

/-- C07 on the output: no target in the same scope as a node with `#[hooq::skip]` is
hooked. -/
theorem C07_skip_output {env : Env} {args : List Meta} {s : Settings} {i i' : Item}
    {uses : List Path} (hs : rootSettings env args = .ok s) (hb : s.bindings.keys.Nodup)
    (h : hooqImpls env args i = .ok (uses, i')) {p : List Nat} {d0 : Data} {up : List Data}
    (hu : i.chain p = some (d0 :: up)) (hr : reached env s (d0 :: up) = true) :
    ∃ n', i'.tree.sub p = some n' ∧ ∀ m ∈ n'.marks, ∀ l d rest,
      targetUp m.1.kind (d0 :: up) = l ++ d :: rest → d.seen.any Meta.isSkip = true →
      d.seen.any Meta.isSkipAll = false → NoSkip l → ¬ SameScope l := by
  obtain ⟨n', h1, h2, h3⟩ := C19_at_most_one hs hb h hu hr
  refine ⟨n', h1, fun m hm l d rest he hd hna hl hsc => ?_⟩
  obtain ⟨g1, _⟩ := hookFact_target (h3 m hm)
  simp only [hookedAt, Bool.and_eq_true, Bool.not_eq_true'] at g1
  rw [he, (C07_skip_same_scope hd hna hl).2 hsc] at g1
  simp at g1

/-- The node without its `#[hooq::skip]` attributes. -/
def Data.noSkip (d : Data) : Data := { d with attrs := d.attrs.filter fun a => !Meta.isSkip a }

theorem seen_noSkip (d : Data) : d.noSkip.seen = d.seen.filter fun a => !Meta.isSkip a := by
  obtain ⟨edge, tag, mode, attrs, span, lm⟩ := d
  cases mode <;> simp only [Data.noSkip, Data.seen, List.filter_nil]
  split <;> simp_all

theorem lastSet_filter {β : Type} {f : Attr → Option β} (hf : ∀ a, Meta.isSkip a = true → f a = none)
    (l : List Attr) : lastSet f (l.filter fun a => !Meta.isSkip a) = lastSet f l := by
  have : (l.filter fun a => !Meta.isSkip a).filterMap f = l.filterMap f := by
    induction l with
    | nil => rfl
    | cons a l ih =>
      cases h : Meta.isSkip a
      · simp [h, List.filterMap_cons, ih]
      · simp [h, hf a h, ih]
  rw [lastSet, lastSet, this]

theorem attrsOver_noSkip {β : Type} {f : Attr → Option β} (hf : ∀ a, Meta.isSkip a = true → f a = none)
    (l rest : List Data) (d : Data) :
    lastSet f (attrsOver (l ++ d.noSkip :: rest)) = lastSet f (attrsOver (l ++ d :: rest)) := by
  have := lastSet_filter hf d.seen
  rw [lastSet, lastSet] at this ⊢
  simp only [attrsOver, List.reverse_append, List.reverse_cons, List.append_assoc, List.flatMap_append,
    List.filterMap_append, List.flatMap_cons, List.flatMap_nil, List.append_nil, seen_noSkip]
  rw [List.getLast?_append, List.getLast?_append, List.getLast?_append, List.getLast?_append]
  simp only [this]

theorem skip_sets_nothing {env : Env} {a : Attr} (h : Meta.isSkip a = true) :
    targetsOf env a = none ∧ tailIdentsOf env a = none ∧ resultTypesOf env a = none ∧
    macrosOf env a = none ∧ ignoreOf env a = .keep := by
  cases a <;> simp [Meta.isSkip] at h
  simp [targetsOf, tailIdentsOf, resultTypesOf, macrosOf, ignoreOf]

theorem nodeIgnore_filter (env : Env) (l : List Attr) :
    nodeIgnore env (l.filter fun a => !Meta.isSkip a) = nodeIgnore env l := by
  have : ∀ cur, (l.filter fun a => !Meta.isSkip a).foldl (fun cur a => (ignoreOf env a).apply cur) cur
      = l.foldl (fun cur a => (ignoreOf env a).apply cur) cur := by
    induction l with
    | nil => intro cur; rfl
    | cons a l ih =>
      intro cur
      cases h : Meta.isSkip a
      · simp [h, ih]
      · simp only [h, List.filter_cons, Bool.not_true, Bool.false_eq_true, if_false, ih, List.foldl_cons]
        rw [(skip_sets_nothing (env := env) h).2.2.2.2]
        rfl
  exact this none

theorem findSome_noSkip {β : Type} (f : Data → Option β) {l rest : List Data} {d : Data}
    (h : f d.noSkip = f d) : (l ++ d.noSkip :: rest).findSome? f = (l ++ d :: rest).findSome? f := by
  simp [List.findSome?_append, List.findSome?_cons, h]

/-- Everything but skipping is the same with and without `#[hooq::skip]`. -/
theorem settings_noSkip (env : Env) (s : Settings) (l rest : List Data) (d : Data) :
    targetsAt env s (l ++ d.noSkip :: rest) = targetsAt env s (l ++ d :: rest) ∧
    (∀ c, returnWanted env s (l ++ d.noSkip :: rest) c = returnWanted env s (l ++ d :: rest) c) ∧
    (∀ tk c, tailWanted env s (l ++ d.noSkip :: rest) tk c = tailWanted env s (l ++ d :: rest) tk c) := by
  have e1 : targetsAt env s (l ++ d.noSkip :: rest) = targetsAt env s (l ++ d :: rest) := by
    rw [targetsAt, attrsOver_noSkip (fun a h => (skip_sets_nothing h).1)]; rfl
  have e2 : tailIdentsAt env s (l ++ d.noSkip :: rest) = tailIdentsAt env s (l ++ d :: rest) := by
    rw [tailIdentsAt, attrsOver_noSkip (fun a h => (skip_sets_nothing h).2.1)]; rfl
  have e3 : resultTypesAt env s (l ++ d.noSkip :: rest) = resultTypesAt env s (l ++ d :: rest) := by
    rw [resultTypesAt, attrsOver_noSkip (fun a h => (skip_sets_nothing h).2.2.1)]; rfl
  have e4 : ignoreAt env s (l ++ d.noSkip :: rest) = ignoreAt env s (l ++ d :: rest) := by
    rw [ignoreAt, findSome_noSkip _ (by rw [seen_noSkip, nodeIgnore_filter])]; rfl
  have e5 : resultAt env s (l ++ d.noSkip :: rest) = resultAt env s (l ++ d :: rest) := by
    have : innermostFn (l ++ d.noSkip :: rest) = innermostFn (l ++ d :: rest) := findSome_noSkip _ rfl
    rw [resultAt, resultAt, e3, outputAt, outputAt, this]
  refine ⟨e1, fun c => ?_, fun tk c => ?_⟩
  · rw [returnWanted, returnWanted, e2, e4, e5]
  · rw [tailWanted, tailWanted, e2, e4, e5]

theorem suppressed_noSkip {l rest : List Data} {d : Data} (hd : d.seen.any Meta.isSkip = true)
    (hna : d.seen.any Meta.isSkipAll = false) (hl : NoSkip l) (hsc : ¬ SameScope l)
    (hout : ¬ ∃ e ∈ rest, e.seen.any Meta.isSkipAll = true) :
    ¬ Suppressed (l ++ d :: rest) ∧ ¬ Suppressed (l ++ d.noSkip :: rest) := by
  have hd' : NoSkip [d.noSkip] := by
    intro e he
    simp only [List.mem_singleton] at he
    subst he
    simp only [seen_noSkip]
    constructor
    · simp
    · rw [Bool.eq_false_iff] at hna ⊢
      intro h
      apply hna
      simp only [List.any_eq_true, List.mem_filter] at h ⊢
      obtain ⟨a, ⟨h1, _⟩, h2⟩ := h
      exact ⟨a, h1, h2⟩
  have hr : skippedUp true rest = false := by
    clear hd' hl hna hd
    have : ∀ rest : List Data, (¬ ∃ e ∈ rest, e.seen.any Meta.isSkipAll = true) → skippedUp true rest = false := by
      intro rest
      induction rest with
      | nil => intro _; rfl
      | cons e rest ih =>
        intro h
        have h1 : e.seen.any Meta.isSkipAll = false := by
          rw [Bool.eq_false_iff]; exact fun hh => h ⟨e, by simp, hh⟩
        have h2 := ih fun ⟨x, hx, hy⟩ => h ⟨x, by simp [hx], hy⟩
        rw [skippedUp, h1]
        simp [h2]
    exact this rest hout
  rw [← skippedAt_iff, ← skippedAt_iff]
  have k : skippedAt (l ++ d :: rest) ≠ true := fun h => hsc ((C07_skip_same_scope hd hna hl).1 h)
  refine ⟨k, ?_⟩
  rw [← C07_skip_nested_scope_partial hd hna hd' hl hsc hr]
  exact k

/-- C07, second half, for `?`.  Two items differ above a `?` in one node: in the first it
carries `#[hooq::skip]`, in the second it does not.  If the way from that node to the `?`
enters a scope, the `?` is hooked in both expansions or in none.  Full statement: the same
without `hout`; it fails below a `skip_all` (`C06_reenabled`). -/
theorem C07_absent_question_partial {env : Env} {args : List Meta} {s : Settings} {i1 i2 i1' i2' : Item}
    {u1 u2 : List Path} (hs : rootSettings env args = .ok s) (hb : s.bindings.keys.Nodup)
    (h1 : hooqImpls env args i1 = .ok (u1, i1')) (h2 : hooqImpls env args i2 = .ok (u2, i2'))
    {p : List Nat} {d0 d : Data} {l rest : List Data} {q : Span} {b : Bool}
    (c1 : i1.chain p = some (d0 :: l ++ d :: rest)) (c2 : i2.chain p = some (d0 :: l ++ d.noSkip :: rest))
    (hq : d0.tag = .question q b) (r1 : reached env s (d0 :: l ++ d :: rest) = true)
    (r2 : reached env s (d0 :: l ++ d.noSkip :: rest) = true)
    (hd : d.seen.any Meta.isSkip = true) (hna : d.seen.any Meta.isSkipAll = false)
    (hl : NoSkip (d0 :: l)) (hsc : ¬ SameScope (d0 :: l))
    (hout : ¬ ∃ e ∈ rest, e.seen.any Meta.isSkipAll = true) :
    ∃ n1 k1 n2 k2, i1'.tree.sub p = some n1 ∧ n1.kids = [k1] ∧ i2'.tree.sub p = some n2 ∧ n2.kids = [k2] ∧
      (k1.marks ≠ [] ↔ k2.marks ≠ []) := by
  obtain ⟨n1, k1, a1, a2, a3⟩ := C56_question hs hb h1 c1 hq r1
  obtain ⟨n2, k2, b1, b2, b3⟩ := C56_question hs hb h2 c2 hq r2
  refine ⟨n1, k1, n2, k2, a1, a2, b1, b2, ?_⟩
  obtain ⟨s1, s2⟩ := suppressed_noSkip hd hna hl hsc hout
  obtain ⟨e1, -⟩ := settings_noSkip env s (d0 :: l) rest d
  rw [a3, b3]
  simp only [List.cons_append] at s1 s2 e1 ⊢
  simp [s1, s2, e1]

/-- C07, second half, for `return`, with the same called function in both outputs. -/
theorem C07_absent_return_partial {env : Env} {args : List Meta} {s : Settings} {i1 i2 i1' i2' : Item}
    {u1 u2 : List Path} (hs : rootSettings env args = .ok s) (hb : s.bindings.keys.Nodup)
    (h1 : hooqImpls env args i1 = .ok (u1, i1')) (h2 : hooqImpls env args i2 = .ok (u2, i2'))
    {p : List Nat} {d0 d : Data} {l rest : List Data}
    (c1 : i1.chain p = some (d0 :: l ++ d :: rest)) (c2 : i2.chain p = some (d0 :: l ++ d.noSkip :: rest))
    (hq : d0.tag = .ret) (r1 : reached env s (d0 :: l ++ d :: rest) = true)
    (r2 : reached env s (d0 :: l ++ d.noSkip :: rest) = true)
    (hd : d.seen.any Meta.isSkip = true) (hna : d.seen.any Meta.isSkipAll = false)
    (hl : NoSkip (d0 :: l)) (hsc : ¬ SameScope (d0 :: l))
    (hout : ¬ ∃ e ∈ rest, e.seen.any Meta.isSkipAll = true) :
    ∃ n1 n2, i1'.tree.sub p = some n1 ∧ i2'.tree.sub p = some n2 ∧
      ∀ k1 ∈ n1.kids, ∀ k2 ∈ n2.kids, k1.bare.callee = k2.bare.callee → (k1.marks ≠ [] ↔ k2.marks ≠ []) := by
  obtain ⟨n1, a1, a3⟩ := C56_return hs hb h1 c1 hq r1
  obtain ⟨n2, b1, b3⟩ := C56_return hs hb h2 c2 hq r2
  refine ⟨n1, n2, a1, b1, fun k1 hk1 k2 hk2 hc => ?_⟩
  obtain ⟨s1, s2⟩ := suppressed_noSkip hd hna hl hsc hout
  obtain ⟨e1, e2, -⟩ := settings_noSkip env s (d0 :: l) rest d
  rw [a3 k1 hk1, b3 k2 hk2, hc]
  simp only [List.cons_append] at s1 s2 e1 e2 ⊢
  simp [s1, s2, e1, e2]

/-- C07, second half, for tail expressions. -/
theorem C07_absent_tail_partial {env : Env} {args : List Meta} {s : Settings} {i1 i2 i1' i2' : Item}
    {u1 u2 : List Path} (hs : rootSettings env args = .ok s) (hb : s.bindings.keys.Nodup)
    (h1 : hooqImpls env args i1 = .ok (u1, i1')) (h2 : hooqImpls env args i2 = .ok (u2, i2'))
    {p : List Nat} {d0 d : Data} {l rest : List Data}
    (c1 : i1.chain p = some (d0 :: l ++ d :: rest)) (c2 : i2.chain p = some (d0 :: l ++ d.noSkip :: rest))
    {tk : TailKind} (hq : d0.edge.tail = some tk) (hm : d0.mode ≠ .untouched)
    (r1 : reached env s (d0 :: l ++ d :: rest) = true)
    (r2 : reached env s (d0 :: l ++ d.noSkip :: rest) = true)
    (hd : d.seen.any Meta.isSkip = true) (hna : d.seen.any Meta.isSkipAll = false)
    (hl : NoSkip (d0 :: l)) (hsc : ¬ SameScope (d0 :: l))
    (hout : ¬ ∃ e ∈ rest, e.seen.any Meta.isSkipAll = true) :
    ∃ n1 n2, i1'.tree.sub p = some n1 ∧ i2'.tree.sub p = some n2 ∧
      (n1.bare.callee = n2.bare.callee → (n1.tailMarks ≠ [] ↔ n2.tailMarks ≠ [])) := by
  obtain ⟨n1, a1, a3⟩ := C56_tail hs hb h1 c1 hq hm r1
  obtain ⟨n2, b1, b3⟩ := C56_tail hs hb h2 c2 hq hm r2
  refine ⟨n1, n2, a1, b1, fun hc => ?_⟩
  obtain ⟨s1, s2⟩ := suppressed_noSkip hd hna hl hsc hout
  obtain ⟨e1, -, e3⟩ := settings_noSkip env s (d0 :: l) rest d
  rw [a3, b3, hc]
  simp only [List.cons_append] at s1 s2 e1 e3 ⊢
  simp [s1, s2, e1, e3]

section
open Ex
set_option maxRecDepth 10000

/-- `fn f() -> Result { #[hooq::skip] g(y?, { z?; }); }`, and the same without the attribute. -/
def Ex.inSkip (skip : Bool) : Item :=
  .fn [] { ident := "f", output := result, text := "fn f () -> Result" }
    [.expr (.mk (if skip then [.path (hooqPath "skip")] else []) (sp 2 1) (.call (var "g" 2) [
      quest [] (var "y" 3) 3,
      .mk [] (sp 3 1) (.block "" [.expr (quest [] (var "z" 4) 4) true])])) true]

/-- The hypotheses hold for `z?`, which is hooked both times. -/
example : ∃ i1' i2' d0 d l rest q b k1 k2, hooqImpls env [] (Ex.inSkip true) = .ok ([], i1') ∧
    hooqImpls env [] (Ex.inSkip false) = .ok ([], i2') ∧
    (Ex.inSkip true).chain [0, 2, 0] = some (d0 :: l ++ d :: rest) ∧
    (Ex.inSkip false).chain [0, 2, 0] = some (d0 :: l ++ d.noSkip :: rest) ∧
    d0.tag = .question q b ∧ reached env settings (d0 :: l ++ d :: rest) = true ∧
    reached env settings (d0 :: l ++ d.noSkip :: rest) = true ∧ d.seen.any Meta.isSkip = true ∧
    d.seen.any Meta.isSkipAll = false ∧ NoSkip (d0 :: l) ∧ ¬ SameScope (d0 :: l) ∧
    (¬ ∃ e ∈ rest, e.seen.any Meta.isSkipAll = true) ∧
    i1'.tree.sub [0, 2, 0, 0] = some k1 ∧ k1.marks ≠ [] ∧ i2'.tree.sub [0, 2, 0, 0] = some k2 ∧ k2.marks ≠ [] := by
  refine ⟨_, _, _, _, [_], [_], _, _, _, _, rfl, rfl, rfl, rfl, rfl, rfl, rfl, rfl, rfl, ?_, ?_, ?_,
    rfl, (by intro hc; cases hc), rfl, (by intro hc; cases hc)⟩
  · simp [NoSkip, Data.seen]
  · simp [SameScope]
    rfl
  · simp [Data.seen]

/-- The `y?` is in the same scope as the attribute: it is reached and not hooked. -/
example : ∃ i' d0 up l d rest n', hooqImpls env [] (Ex.inSkip true) = .ok ([], i') ∧
    (Ex.inSkip true).chain [0, 1, 0] = some (d0 :: up) ∧ reached env settings (d0 :: up) = true ∧
    targetUp .question (d0 :: up) = l ++ d :: rest ∧ d.seen.any Meta.isSkip = true ∧
    d.seen.any Meta.isSkipAll = false ∧ NoSkip l ∧ SameScope l ∧ l ≠ [] ∧
    i'.tree.sub [0, 1, 0] = some n' ∧ n'.marks = [] := by
  refine ⟨_, _, _, [_], _, [_], _, rfl, rfl, rfl, rfl, rfl, rfl, ?_, ?_, by simp, rfl, rfl⟩
  · simp [NoSkip, Data.seen]
  · simp only [SameScope, List.mem_singleton, forall_eq]

end

end Hooq
