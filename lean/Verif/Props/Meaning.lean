import Verif.Proof.Meaning
import Verif.Props.Batch
import Verif.Props.Erase

/-!
# Hooks that change nothing leave the behaviour as it was (C69)
-/

namespace Hooq

/-- Without hooks nothing but what does not count is erased. -/
theorem meaning_clean {α : Type} (M : Meaning α) {i : Item} (hsrc : i.IsSource) :
    M.of i = M.of (cleanItem true i) := by
  refine simItem (R := Eq) (ed := {}) ?_ i (allMarks_plain (plain_of_source hsrc))
  intro l as bs h
  rw [List.forall₂_eq_eq_eq] at h
  rw [h]

/-- C69.  Take any compositional semantics `M` of the code and any relation `R` between
meanings that all constructs respect.  If no hook that the expansion put in does anything
that `R` can see, and hooks in place of a `?` do what the `?` does, then `R` relates the
meaning of the output to the meaning of the input.  This includes hooks that the parser
applies to the last operand only. -/
theorem C69_simulation {env : Env} {args : List Meta} {i i' : Item} {uses : List Path}
    (hsrc : i.IsSource) (h : hooqImpls env args i = .ok (uses, i')) {α : Type} {M : Meaning α}
    {R : α → α → Prop} (hM : Congruent M R) (ht : ∀ hk, i'.Hooked hk → Transparent M R hk) :
    R (M.of i') (M.of i) := by
  obtain ⟨s, hs⟩ := rootSettings_of_ok h
  obtain ⟨c', hw⟩ := expansion hs h
  have h1 := gwalk_sources i.tree (plain_of_source hsrc) hw
  have h2 : i'.tree.AllMarks (GoodMark M R) := by
    have h3 : i'.tree.AllMarks fun m => Transparent M R m.1 :=
      allMarks_of_sub fun p n hp m hm => ht m.1 ⟨p, n, hp, m, hm, rfl⟩
    exact allMarks_and h3 h1
  have h4 := simItem hM (ed := {}) i' h2
  rw [meaning_clean M hsrc, ← C04_code_kept h]
  exact h4

/-- C69, with equality: if every hook that was put in means nothing (its operand, or the
`?` it stands for), then the output means exactly what the input means. -/
theorem C69_same {env : Env} {args : List Meta} {i i' : Item} {uses : List Path}
    (hsrc : i.IsSource) (h : hooqImpls env args i = .ok (uses, i')) {α : Type} {M : Meaning α}
    (ht : ∀ hk, i'.Hooked hk → ∀ v, if hk.consumes then ∀ sp, M.hook hk id v = M.node (questionLabel sp hk.span) [v]
      else M.hook hk id v = v) : M.of i' = M.of i := by
  refine C69_simulation (R := Eq) hsrc h ?_ fun hk hh f hf a b hab => ?_
  · intro l as bs h
    rw [List.forall₂_eq_eq_eq] at h
    rw [h]
  · have : f = id := funext fun a => hf a a rfl
    subst this hab
    exact ht hk hh a

/-! ## An example -/

open Ex

/-- A semantics with a log: the value is the number of nodes, hooks write to the log. -/
def Ex.logging : Meaning (Nat × List String) where
  node _ vs := (1 + (vs.map Prod.fst).sum, (vs.map Prod.snd).flatten)
  insert hk v := (if hk.consumes then 1 + v.1 else v.1, v.2 ++ ["hook"])
  replace hk f v := f (if hk.consumes then 1 + v.1 else v.1, v.2 ++ ["hook"])

/-- The same value, whatever is in the log. -/
def Ex.sameValue (a b : Nat × List String) : Prop := a.1 = b.1

theorem Ex.logging_congruent : Congruent Ex.logging Ex.sameValue := by
  intro l as bs h
  simp only [Ex.sameValue, Ex.logging, Nat.add_left_cancel_iff]
  induction h with
  | nil => rfl
  | cons h _ ih => simp only [List.map_cons, List.sum_cons, ih]; rw [h]

theorem Ex.logging_transparent (hk : HookData) : Transparent Ex.logging Ex.sameValue hk := by
  intro f hf a b hab
  have hn : ∀ sp, Ex.logging.node (questionLabel sp hk.span) [b] = (1 + b.1, b.2) := by
    intro sp; simp [Ex.logging]
  have hab' : a.1 = b.1 := hab
  split
  · rename_i hc
    intro sp
    rw [hn]
    cases hm : hk.mode <;> simp only [Meaning.hook, hm] <;> refine hf _ _ ?_ <;>
      simp only [Ex.sameValue, Ex.logging, if_pos hc, hab']
  · rename_i hc
    cases hm : hk.mode <;> simp only [Meaning.hook, hm] <;> refine hf _ _ ?_ <;>
      simp only [Ex.sameValue, Ex.logging, if_neg hc, hab']

/-- The hypotheses can be met, and the expansion is not the identity: the value of the
function stays, and its log gets an entry for each of the three hooks. -/
example : Ex.tallied.IsSource ∧ ∃ o, hooqImpls env [] Ex.tallied = .ok ([], o) ∧
    (Ex.logging.of o).1 = (Ex.logging.of Ex.tallied).1 ∧
    (Ex.logging.of Ex.tallied).2 = [] ∧ (Ex.logging.of o).2 = ["hook", "hook", "hook"] := by
  have hsrc : Ex.tallied.IsSource := fun p n hs => by
    have := allNodes_sub (t := Ex.tallied.tree) (f := fun n => !n.built) rfl hs
    simpa using this
  have hv : ∀ o, hooqImpls env [] Ex.tallied = .ok ([], o) → (Ex.logging.of o).1 = (Ex.logging.of Ex.tallied).1 :=
    fun o h => C69_simulation hsrc h Ex.logging_congruent fun hk _ => Ex.logging_transparent hk
  exact ⟨hsrc, _, rfl, hv _ rfl, rfl, rfl⟩

end Hooq
