import Verif.Proof.Nodes
import Verif.Props.Fixture

/-!
# Where hooks are placed (C01, C02, C03, C15, C19)

`i.chain p = some (d :: up)` says that `p` is a position of item `i`, `d` is the node
there and `up` are the nodes around it, innermost first.  `reached` says that the
position is not below the left side of an assignment nor in a macro body where
macros are switched off.
-/

namespace Hooq

theorem expansion {env : Env} {args : List Meta} {s : Settings} {i i' : Item} {uses : List Path}
    (hs : rootSettings env args = .ok s) (h : hooqImpls env args i = .ok (uses, i')) :
    ∃ c', gwalk env (Ctx.new s) i.tree {} = .ok (i'.tree, c') := by
  simp only [hooqImpls, hs] at h
  obtain ⟨_, h0, h⟩ := except_bind_ok h
  obtain rfl := Except.ok.inj h0
  obtain ⟨⟨i2, c'⟩, h1, h2⟩ := except_bind_ok h
  simp only [Except.ok.injEq, Prod.mk.injEq] at h2
  obtain ⟨-, rfl⟩ := h2
  refine ⟨c', ?_⟩
  rw [refItem env (Ctx.new s) {} rfl rfl i, enter_empty]
  exact W.map_ok_of h1

/-- Positions that are not reached are left as they are. -/
theorem unreached_unchanged {env : Env} {args : List Meta} {s : Settings} {i i' : Item}
    {uses : List Path} (hs : rootSettings env args = .ok s)
    (h : hooqImpls env args i = .ok (uses, i')) {p : List Nat} {up : List Data}
    (hu : i.chain p = some up) (hr : reached env s up = false) :
    i'.tree.sub p = i.tree.sub p := by
  obtain ⟨c', hw⟩ := expansion hs h
  exact gwalk_unreached (wfItem {} i) (agrees_new env s)
    (by intro hv; rw [reached_cons]; simp [hv, reached]) hw hu hr

/-- C01.  A `?` that the macro visits gets exactly one hook on its operand if it is
not skipped and `?` is among the hook targets in force; otherwise its operand has no
hook.  A `?` that is not visited is left alone. -/
theorem C01_question_placement {env : Env} {args : List Meta} {s : Settings} {i i' : Item}
    {uses : List Path} (hs : rootSettings env args = .ok s) (hb : s.bindings.keys.Nodup)
    (h : hooqImpls env args i = .ok (uses, i')) {p : List Nat} {d : Data} {up : List Data}
    {q : Span} {b : Bool} (hu : i.chain p = some (d :: up)) (hq : d.tag = .question q b) :
    if reached env s (d :: up) then
      ∃ n' k', i'.tree.sub p = some n' ∧ n'.kids = [k'] ∧
        if !skippedAt (d :: up) && (targetsAt env s (d :: up)).question then
          ∃ hk src, k'.marks = [(hk, src)] ∧ hk.kind = .question ∧
            hk.mode = (methodAt env s (d :: up)).mode
        else k'.marks = []
    else i'.tree.sub p = i.tree.sub p := by
  split
  · rename_i hr
    obtain ⟨c', hw⟩ := expansion hs h
    obtain ⟨n, n', k', h1, h2, h3, h4, h5, h6, h7⟩ :=
      question_at (wfItem {} i) hb (agrees_new env s) hw hu hq hr
    refine ⟨n', k', h2, h5, ?_⟩
    change (if hookedAt env s (d :: up) .question = true then _ else _)
    split
    · rename_i hh; rw [if_pos hh] at h6
      obtain ⟨hk, m, e1, e2⟩ := h6
      exact ⟨hk, _, e1, e2.kind, e2.mode⟩
    · rename_i hh; rw [if_neg hh] at h6; exact h6
  · rename_i hr
    exact unreached_unchanged hs h hu (by simpa using hr)

/-- C02.  A `return` with a value gets exactly one hook on the value if it is not
skipped, `return` is enabled, and the processed value is a call of a tail ident or
the innermost function returns a result type and the value is not a call of an ignore
ident.  Otherwise no hook, and a bare `return` stays bare. -/
theorem C02_return_placement {env : Env} {args : List Meta} {s : Settings} {i i' : Item}
    {uses : List Path} (hs : rootSettings env args = .ok s) (hb : s.bindings.keys.Nodup)
    (h : hooqImpls env args i = .ok (uses, i')) {p : List Nat} {d : Data} {up : List Data}
    (hu : i.chain p = some (d :: up)) (hq : d.tag = .ret) :
    if reached env s (d :: up) then
      ∃ n n', i.tree.sub p = some n ∧ i'.tree.sub p = some n' ∧ n'.data.tag = .ret ∧
        ((n.kids = [] ∧ n'.kids = []) ∨
         ∃ k k', n.kids = [k] ∧ n'.kids = [k'] ∧
          if !skippedAt (d :: up) && (targetsAt env s (d :: up)).ret &&
              (endsIn k'.bare.callee (tailIdentsAt env s (d :: up)) ||
                (resultAt env s (d :: up) && !endsIn k'.bare.callee (ignoreAt env s (d :: up)))) then
            ∃ hk src, k'.marks = [(hk, src)] ∧ hk.kind = .ret ∧
              hk.mode = (methodAt env s (d :: up)).mode
          else k'.marks = [])
    else i'.tree.sub p = i.tree.sub p := by
  split
  · rename_i hr
    obtain ⟨c', hw⟩ := expansion hs h
    obtain ⟨n, n', h1, h2, h3, h4⟩ := return_at (wfItem {} i) hb (agrees_new env s) hw hu hq hr
    refine ⟨n, n', h1, h2, h3, ?_⟩
    rcases h4 with h4 | ⟨k, k', e1, e2, e3, e4⟩
    · exact .inl h4
    · refine .inr ⟨k, k', e1, e2, ?_⟩
      change (if (hookedAt env s (d :: up) .ret && returnWanted env s (d :: up) k'.bare.callee) = true
        then _ else _)
      split
      · rename_i hh; rw [if_pos hh] at e4
        obtain ⟨hk, m, f1, f2⟩ := e4
        exact ⟨hk, _, f1, f2.kind, f2.mode⟩
      · rename_i hh; rw [if_neg hh] at e4; exact e4
  · rename_i hr
    exact unreached_unchanged hs h hu (by simpa using hr)

/-- C03.  The hooks of kind tail on a visited node: none if the node is not a
trailing expression (of a block, of a fn or closure body, of a match arm); otherwise
exactly one if it is not skipped, tail expressions are enabled, and it is a call of a
tail ident, or the tail of a fn/closure body with a result type and not a call of an
ignore ident.  (`untouched` nodes are `Expr::Verbatim`.) -/
theorem C03_tail_placement {env : Env} {args : List Meta} {s : Settings} {i i' : Item}
    {uses : List Path} (hs : rootSettings env args = .ok s) (hb : s.bindings.keys.Nodup)
    (h : hooqImpls env args i = .ok (uses, i')) {p : List Nat} {d : Data} {up : List Data}
    (hu : i.chain p = some (d :: up)) :
    if reached env s (d :: up) then
      ∃ n', i'.tree.sub p = some n' ∧
        match d.edge.tail with
        | none => n'.tailMarks = []
        | some tk =>
          if d.mode ≠ .untouched ∧ (!skippedAt (d :: up) && (targetsAt env s (d :: up)).tail &&
              (endsIn n'.bare.callee (tailIdentsAt env s (d :: up)) ||
                (tk == .fnTail && resultAt env s (d :: up) &&
                  !endsIn n'.bare.callee (ignoreAt env s (d :: up))))) = true then
            ∃ hk src, n'.tailMarks = [(hk, src)] ∧ hk.kind = .tail ∧
              hk.mode = (methodAt env s (d :: up)).mode
          else n'.tailMarks = []
    else i'.tree.sub p = i.tree.sub p := by
  split
  · rename_i hr
    obtain ⟨c', hw⟩ := expansion hs h
    obtain ⟨n, n', h1, h2, h3⟩ := tail_at hb (agrees_new env s) hw hu hr
    refine ⟨n', h2, ?_⟩
    cases htl : d.edge.tail with
    | none => simpa only [htl] using h3
    | some tk =>
      simp only [htl] at h3 ⊢
      change (if d.mode ≠ .untouched ∧
        (hookedAt env s (d :: up) .tail && tailWanted env s (d :: up) tk n'.bare.callee) = true
        then _ else _)
      split
      · rename_i hh; rw [if_pos hh] at h3
        obtain ⟨hk, m, f1, f2⟩ := h3
        exact ⟨hk, _, f1, f2.kind, f2.mode⟩
      · rename_i hh; rw [if_neg hh] at h3; exact h3
  · rename_i hr
    exact unreached_unchanged hs h hu (by simpa using hr)

/-- C15.  The source text of a hook is the target as it was written: the node itself
(with all its inner code, without hooks) minus its inert attributes; the hook sits on
the processed operand.  Stated for the operand of a `?`, of a `return`, and for a
trailing expression. -/
theorem C15_source_and_expr {env : Env} {args : List Meta} {s : Settings} {i i' : Item}
    {uses : List Path} (hs : rootSettings env args = .ok s) (hb : s.bindings.keys.Nodup)
    (h : hooqImpls env args i = .ok (uses, i')) {p : List Nat} {d : Data} {up : List Data}
    (hu : i.chain p = some (d :: up)) (hr : reached env s (d :: up) = true) :
    ∃ n n', i.tree.sub p = some n ∧ i'.tree.sub p = some n' ∧
      (∀ q b, d.tag = .question q b → ∀ k' ∈ n'.kids, ∀ m ∈ k'.marks,
        m.2 = .mk { d with edge := {}, attrs := d.kept } [] n.kids) ∧
      (d.tag = .ret → ∀ k' ∈ n'.kids, ∀ m ∈ k'.marks,
        m.2 = .mk { d with edge := {}, attrs := d.kept } [] n.kids) ∧
      (∀ m ∈ n'.tailMarks, m.2 = .mk { d with edge := {}, attrs := d.kept } [] n.kids) := by
  obtain ⟨c', hw⟩ := expansion hs h
  obtain ⟨n, n', h1, h2, h3, _⟩ := node_at hb (agrees_new env s) hw hu hr
  have hsrc : n.asSource = .mk { d with edge := {}, attrs := d.kept } [] n.kids := by
    simp [RTree.asSource, sourceTree, h3]
  refine ⟨n, n', h1, h2, ?_, ?_, ?_⟩
  · intro q b hq k' hk' m hm
    obtain ⟨a, a', k, j1, j2, j3, j4, j5, j6, j7⟩ :=
      question_at (wfItem {} i) hb (agrees_new env s) hw hu hq hr
    rw [h2] at j2; obtain rfl := Option.some.inj j2
    rw [h1] at j1; obtain rfl := Option.some.inj j1
    rw [j5, List.mem_singleton] at hk'; subst hk'
    split at j6
    · obtain ⟨hk, _, e, _⟩ := j6
      rw [e, List.mem_singleton] at hm; rw [hm]; exact hsrc
    · rw [j6] at hm; simp at hm
  · intro hq k' hk' m hm
    obtain ⟨a, a', j1, j2, j3, j4⟩ := return_at (wfItem {} i) hb (agrees_new env s) hw hu hq hr
    rw [h2] at j2; obtain rfl := Option.some.inj j2
    rw [h1] at j1; obtain rfl := Option.some.inj j1
    rcases j4 with ⟨_, j4⟩ | ⟨k, k2, j4, j5, j6, j7⟩
    · rw [j4] at hk'; simp at hk'
    · rw [j5, List.mem_singleton] at hk'; subst hk'
      split at j7
      · obtain ⟨hk, _, e, _⟩ := j7
        rw [e, List.mem_singleton] at hm; rw [hm]; exact hsrc
      · rw [j7] at hm; simp at hm
  · intro m hm
    obtain ⟨a, a', j1, j2, j3⟩ := tail_at hb (agrees_new env s) hw hu hr
    rw [h2] at j2; obtain rfl := Option.some.inj j2
    rw [h1] at j1; obtain rfl := Option.some.inj j1
    split at j3
    · rw [j3] at hm; simp at hm
    · split at j3
      · obtain ⟨hk, _, e, _⟩ := j3
        rw [e, List.mem_singleton] at hm; rw [hm]; exact hsrc
      · rw [j3] at hm; simp at hm

/-- C19.  Every visited node of the output carries at most one hook, and that hook
belongs to a target: the node as a trailing expression, or the enclosing `?` or
`return` of which the node is the operand (`HookFact`).  So a target gets at most one
hook of its kind and no hook is on anything else.  Code that comes from a template is
no node of the tree, and the whole tree is walked exactly once, so it is never
hooked. -/
theorem C19_at_most_one {env : Env} {args : List Meta} {s : Settings} {i i' : Item}
    {uses : List Path} (hs : rootSettings env args = .ok s) (hb : s.bindings.keys.Nodup)
    (h : hooqImpls env args i = .ok (uses, i')) {p : List Nat} {d : Data} {up : List Data}
    (hu : i.chain p = some (d :: up)) (hr : reached env s (d :: up) = true) :
    ∃ n', i'.tree.sub p = some n' ∧ n'.marks.length ≤ 1 ∧
      ∀ m ∈ n'.marks, HookFact env s (d :: up) n' m.1 := by
  obtain ⟨c', hw⟩ := expansion hs h
  exact marks_at (wfItem {} i) hb (agrees_new env s) hw hu hr

/-! ## The hypotheses are satisfiable -/

section
open Ex
set_option maxRecDepth 10000

/-- `h?` inside the first `let` of the sample: visited and hooked. -/
example : ∃ d up q, Ex.item.chain [0, 0, 0, 1] = some (d :: up) ∧ d.tag = .question q false ∧
    reached env settings (d :: up) = true ∧ hookedAt env settings (d :: up) .question = true ∧
    settings.bindings.keys.Nodup ∧ hooqImpls env [] item = .ok ([], out) :=
  ⟨_, _, _, rfl, rfl, rfl, rfl, List.nodup_nil, out_ok⟩

/-- `y?` of the sample is skipped, `z?` too, `i?` on the left of `=` is not visited. -/
example : ∃ d up q d1 up1 q1 d2 up2 q2,
    Ex.item.chain [1] = some (d :: up) ∧ d.tag = .question q false ∧
    reached env settings (d :: up) = true ∧ skippedAt (d :: up) = true ∧
    Ex.item.chain [2, 0, 0, 0, 0] = some (d1 :: up1) ∧ d1.tag = .question q1 false ∧
    reached env settings (d1 :: up1) = true ∧ skippedAt (d1 :: up1) = true ∧
    Ex.item.chain [5, 0, 1] = some (d2 :: up2) ∧ d2.tag = .question q2 false ∧
    reached env settings (d2 :: up2) = false :=
  ⟨_, _, _, _, _, _, _, _, _, rfl, rfl, rfl, rfl, rfl, rfl, rfl, rfl, rfl, rfl, rfl⟩

/-- `return Err(e)` in the closure: hooked; the final `Err(t)`: hooked as a tail. -/
example : ∃ d up d1 up1,
    Ex.item.chain [2, 0, 0, 1] = some (d :: up) ∧ d.tag = .ret ∧
    reached env settings (d :: up) = true ∧ hookedAt env settings (d :: up) .ret = true ∧
    Ex.item.chain [7] = some (d1 :: up1) ∧ d1.edge.tail = some .fnTail ∧
    reached env settings (d1 :: up1) = true ∧ hookedAt env settings (d1 :: up1) .tail = true :=
  ⟨_, _, _, _, rfl, rfl, rfl, rfl, rfl, rfl, rfl, rfl⟩

end

end Hooq
