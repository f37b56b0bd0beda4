import Verif.Model.Walker

/-!
# Lemmas on attribute processing
-/

namespace Hooq

theorem bind_false {α : Type} {x : Except Err α} {g : α → Inert} {acc : Inert}
    (h : (x >>= fun f => Except.ok (g f, false)) = .ok (acc, true)) : False := by
  cases x <;> simp [bind, Except.bind] at h

theorem inertStep_keep {env : Env} {acc acc' : Inert} {a : Attr}
    (h : inertStep env acc a = .ok (acc', true)) :
    acc' = acc ∧ ∀ acc2, inertStep env acc2 a = .ok (acc2, true) := by
  cases a with
  | path p =>
    simp only [inertStep] at h ⊢
    split at h
    · simp at h
    · split at h
      · simp at h
      · rename_i h1 h2
        simp only [h1, h2, if_false]
        cases hb : getBindingName p with
        | error e => simp [hb, bind, Except.bind] at h
        | ok b =>
          cases b with
          | some b => simp [hb, bind, Except.bind] at h
          | none => simp [hb, bind, Except.bind] at h ⊢; exact h.symm
  | list p ts =>
    simp only [inertStep] at h ⊢
    repeat' (split at h <;> try (simp at h; done))
    all_goals
      simp only [*, if_false]
      cases hb : getBindingName p with
      | error e => simp [hb, bind, Except.bind] at h
      | ok b =>
        cases b with
        | some b => simp [hb, bind, Except.bind] at h
        | none => simp [hb, bind, Except.bind] at h ⊢; exact h.symm
  | nv p v =>
    simp only [inertStep] at h ⊢
    split at h; · exact (bind_false h).elim
    split at h; · exact (bind_false h).elim
    split at h; · exact (bind_false h).elim
    split at h; · exact (bind_false h).elim
    split at h; · simp at h
    split at h; · exact (bind_false h).elim
    split at h; · exact (bind_false h).elim
    split at h; · exact (bind_false h).elim
    simp only [*, if_false]
    cases hb : getBindingName p with
    | error e => simp [hb, bind, Except.bind] at h
    | ok b =>
      cases b with
      | some b => simp [hb, bind, Except.bind] at h
      | none => simp [hb, bind, Except.bind] at h ⊢; exact h.symm

theorem extractFrom_kept {env : Env} {attrs : List Attr} {acc acc' : Inert} {kept : List Attr}
    (h : extractFrom env acc attrs = .ok (acc', kept)) (acc2 : Inert) :
    extractFrom env acc2 kept = .ok (acc2, kept) := by
  induction attrs generalizing acc acc' kept with
  | nil => simp [extractFrom] at h; obtain ⟨_, rfl⟩ := h; rfl
  | cons a rest ih =>
    simp only [extractFrom] at h
    cases hs : inertStep env acc a with
    | error e => simp [hs, bind, Except.bind] at h
    | ok r =>
      obtain ⟨acc1, keep⟩ := r
      simp only [hs, bind, Except.bind] at h
      cases hr : extractFrom env acc1 rest with
      | error e => simp [hr] at h
      | ok r =>
        obtain ⟨acc3, kept3⟩ := r
        simp only [hr, Except.ok.injEq, Prod.mk.injEq] at h
        obtain ⟨rfl, rfl⟩ := h
        have ih' := ih hr
        cases keep with
        | false => simpa using ih'
        | true =>
          have hk := (inertStep_keep hs).2 acc2
          simp only [if_true, extractFrom, hk, bind, Except.bind, ih']

theorem Inert.skipStatus_isSome (i : Inert) : i.skipStatus.isSome = (i.skip || i.skipAll) := by
  cases h : i.skip <;> cases h' : i.skipAll <;> simp [skipStatus, h, h']

theorem handleAttrs_isSkipped {env : Env} {attrs : List Attr} {c : Ctx} {h : Handled}
    (hh : handleAttrs env attrs c = .ok h) : h.isSkipped = h.ctx.isSkipped := by
  simp only [handleAttrs] at hh
  cases he : extract env attrs with
  | error e => simp [he, bind, Except.bind] at hh
  | ok r =>
    obtain ⟨o, kept⟩ := r
    simp only [he, bind, Except.bind, Except.ok.injEq] at hh
    subst hh
    have := o.skipStatus_isSome
    simp only [Ctx.isSkipped, Ctx.update]
    cases hs : o.skipStatus with
    | none => simp [hs] at this; simp [this]
    | some s => simp [hs] at this; rcases this with h | h <;> simp [h]

theorem Ctx.update_empty (c : Ctx) : c.update {} = c := by
  simp [Ctx.update, Field.fromParent, Inert.skipStatus]

/-- Processing the attributes that stay once more changes nothing. -/
theorem handleAttrs_again {env : Env} {attrs : List Attr} {c : Ctx} {h : Handled}
    (hh : handleAttrs env attrs c = .ok h) : handleAttrs env h.attrs h.ctx = .ok h := by
  have hs := handleAttrs_isSkipped hh
  simp only [handleAttrs] at hh
  cases he : extract env attrs with
  | error e => simp [he, bind, Except.bind] at hh
  | ok r =>
    obtain ⟨o, kept⟩ := r
    simp only [he, bind, Except.bind, Except.ok.injEq] at hh
    subst hh
    have hk := extractFrom_kept (acc := {}) he {}
    simp only [handleAttrs, extract, hk, bind, Except.bind, Except.ok.injEq, Ctx.update_empty]
    simp only at hs
    simp [hs]

end Hooq
