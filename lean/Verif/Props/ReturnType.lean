import Verif.Props.Hook

/-!
# Which return type decides (C72)
-/

namespace Hooq

/-- The function or closure entered last on the way to the position, counting neither
async blocks nor consts nor other items, has a declared return type whose last name is one
of the result types in force at the position. -/
def ReturnsResult (env : Env) (s : Settings) (up : List Data) : Prop :=
  ∃ f, innermostFn up = some f ∧ f.output.EndsIn (resultTypesAt env s up)

theorem returnsResult_iff (env : Env) (s : Settings) (up : List Data) :
    resultAt env s up = true ↔ ReturnsResult env s up := by
  cases hf : innermostFn up with
  | none => simp [ReturnsResult, hf, resultAt, outputAt]
  | some f => simp [ReturnsResult, hf, resultAt_iff hf]

/-- C72, for `return`.  A visited, enabled `return` of a value is hooked exactly when the
value is a call of a tail ident, or the innermost function or closure returns a result
type and the value is no call of an ignored ident. -/
theorem C72_return {env : Env} {args : List Meta} {s : Settings} {i i' : Item}
    {uses : List Path} (hs : rootSettings env args = .ok s) (hb : s.bindings.keys.Nodup)
    (h : hooqImpls env args i = .ok (uses, i')) {p : List Nat} {d : Data} {up : List Data}
    (hu : i.chain p = some (d :: up)) (hr : reached env s (d :: up) = true) (hq : d.tag = .ret)
    (he : hookedAt env s (d :: up) .ret = true) :
    ∃ n', i'.tree.sub p = some n' ∧ ∀ k' ∈ n'.kids,
      (k'.marks ≠ [] ↔ endsIn k'.bare.callee (tailIdentsAt env s (d :: up)) = true ∨
        ReturnsResult env s (d :: up) ∧ endsIn k'.bare.callee (ignoreAt env s (d :: up)) = false) := by
  have hp := C02_return_placement hs hb h hu hq
  rw [if_pos hr] at hp
  obtain ⟨n, n', h1, h2, h3, h4⟩ := hp
  refine ⟨n', h2, fun k' hk' => ?_⟩
  rcases h4 with ⟨_, h4⟩ | ⟨k, k2, _, h4, h5⟩
  · rw [h4] at hk'; simp at hk'
  · rw [h4, List.mem_singleton] at hk'; subst hk'
    rw [← returnsResult_iff]
    rw [hookedAt] at he
    have he' : (!skippedAt (d :: up) && (targetsAt env s (d :: up)).ret) = true := he
    rw [he'] at h5
    cases ht : endsIn k'.bare.callee (tailIdentsAt env s (d :: up)) <;>
    cases hi : endsIn k'.bare.callee (ignoreAt env s (d :: up)) <;>
    cases hres : resultAt env s (d :: up) <;>
    simp [ht, hi, hres] at h5 ⊢ <;>
    first
      | exact h5
      | (obtain ⟨hk, ⟨src, h5⟩, _⟩ := h5; simp [h5])

/-- C72, for tail expressions.  The tail of a function or closure body is hooked by the
same rule; the tail of any other block, that of an async block included, only if it is a
call of a tail ident. -/
theorem C72_tail {env : Env} {args : List Meta} {s : Settings} {i i' : Item}
    {uses : List Path} (hs : rootSettings env args = .ok s) (hb : s.bindings.keys.Nodup)
    (h : hooqImpls env args i = .ok (uses, i')) {p : List Nat} {d : Data} {up : List Data}
    (hu : i.chain p = some (d :: up)) (hr : reached env s (d :: up) = true)
    {tk : TailKind} (hq : d.edge.tail = some tk) (hm : d.mode ≠ .untouched)
    (he : hookedAt env s (d :: up) .tail = true) :
    ∃ n', i'.tree.sub p = some n' ∧
      (n'.tailMarks ≠ [] ↔ endsIn n'.bare.callee (tailIdentsAt env s (d :: up)) = true ∨
        tk = .fnTail ∧ ReturnsResult env s (d :: up) ∧
        endsIn n'.bare.callee (ignoreAt env s (d :: up)) = false) := by
  have hp := C03_tail_placement hs hb h hu
  rw [if_pos hr] at hp
  obtain ⟨n', h2, h3⟩ := hp
  refine ⟨n', h2, ?_⟩
  rw [← returnsResult_iff]
  simp only [hq] at h3
  rw [hookedAt] at he
  have he' : (!skippedAt (d :: up) && (targetsAt env s (d :: up)).tail) = true := he
  rw [he'] at h3
  cases ht : endsIn n'.bare.callee (tailIdentsAt env s (d :: up)) <;>
  cases hi : endsIn n'.bare.callee (ignoreAt env s (d :: up)) <;>
  cases hres : resultAt env s (d :: up) <;> cases tk <;>
  simp [ht, hi, hres, hm] at h3 ⊢ <;>
  first
    | exact h3
    | (obtain ⟨hk, ⟨src, h5⟩, _⟩ := h3; simp [h5])

section
open Ex
set_option maxRecDepth 10000

/-- `fn f() -> Result { async { return x; }; const C: T = { return y; }; |z| { return z; }; w }` -/
def Ex.returns : Item :=
  .fn [] { ident := "f", output := result, text := "fn f () -> Result" }
    [.expr (.mk [] (sp 2 1) (.async [.expr (.mk [] (sp 2 9) (.ret (some (var "x" 2)))) true])) true,
     .item (.const_ [] "const C : T" (.mk [] (sp 3 1)
       (.block "" [.expr (.mk [] (sp 3 9) (.ret (some (var "y" 3)))) true]))),
     .expr (.mk [] (sp 4 1) (.closure { output := .none, text := "| z |" } (.mk [] (sp 4 5)
       (.block "" [.expr (.mk [] (sp 4 9) (.ret (some (var "z" 4)))) true])))) true,
     .expr (var "w" 5) false]

/-- The hypotheses of `C72_return` and `C72_tail` are met. -/
example : ∃ i' d up d' up', hooqImpls env [] Ex.returns = .ok ([], i') ∧
    Ex.returns.chain [0, 0] = some (d :: up) ∧ d.tag = .ret ∧
    reached env settings (d :: up) = true ∧ hookedAt env settings (d :: up) .ret = true ∧
    Ex.returns.chain [3] = some (d' :: up') ∧ d'.edge.tail = some .fnTail ∧ d'.mode ≠ .untouched ∧
    hookedAt env settings (d' :: up') .tail = true :=
  ⟨_, _, _, _, _, rfl, rfl, rfl, rfl, rfl, rfl, rfl, by decide, rfl⟩

/-- The async block and the const are judged by `f`, the closure is not. -/
example : (hooqImpls env [] Ex.returns).toOption.map (fun r => [[0, 0, 0], [1, 0, 0, 0], [2, 0, 0, 0]].map
    fun p => (r.2.tree.sub p).map fun n => n.marks.length) =
    some [some 1, some 1, some 0] := rfl

end

end Hooq
