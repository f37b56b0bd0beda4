import Verif.Spec.Template
import Verif.Proof.Expand
import Verif.Props.Scope

/-!
# Templates: lemmas on the substitution relation
-/

namespace Hooq

theorem unspans_append (a b : List TT) : unspans (a ++ b) = unspans a ++ unspans b := by
  induction a with
  | nil => rfl
  | cons t a ih => simp [unspans, ih]

theorem unspan_setSpan (sp : Span) (t : TT) : (t.setSpan sp).unspan = t.unspan := by
  cases t <;> rfl

theorem unspans_setSpan (sp : Span) (ts : List TT) :
    unspans (ts.map (TT.setSpan sp)) = unspans ts := by
  induction ts with
  | nil => rfl
  | cons t ts ih => simp [unspans, ih, unspan_setSpan]

/-- Substitution in a template without `$` keeps the text. -/
theorem Subst.noDollar {σ : String → List TT → Prop} {ts out : List TT} (h : Subst σ ts out)
    (hn : NoDollars ts) : unspans out = unspans ts := by
  induction h with
  | nil => rfl
  | var _ _ _ => simp [NoDollars, TT.NoDollar] at hn
  | group h1 h2 ih1 ih2 =>
    simp only [NoDollars, TT.NoDollar] at hn
    simp only [unspans, TT.unspan, ih1 hn.1, ih2 hn.2]
  | tok h1 h2 h3 ih =>
    simp only [NoDollars] at hn
    simp only [unspans, ih hn.2]
  | lastDollar => simp [NoDollars, TT.NoDollar] at hn

mutual
theorem subst_exists_group (σ : String → List TT → Prop) :
    ∀ t : TT, t.NoDollar → ∀ rest out, Subst σ rest out → ∃ out', Subst σ (t :: rest) out'
  | .group d ts sp, h, rest, out, hr => by
    simp only [TT.NoDollar] at h
    obtain ⟨o, ho⟩ := subst_exists σ ts h
    exact ⟨_, .group ho hr⟩
  | .punct c sp, h, rest, out, hr =>
    ⟨_, .tok (by intro sp' e; simp only [TT.punct.injEq] at e; exact h e.1) (by simp) hr⟩
  | .ident _ _, _, _, _, hr => ⟨_, .tok (by simp) (by simp) hr⟩
  | .lit _ _, _, _, _, hr => ⟨_, .tok (by simp) (by simp) hr⟩
  | .exprHole _, _, _, _, hr => ⟨_, .tok (by simp) (by simp) hr⟩
  | .sourceHole _, _, _, _, hr => ⟨_, .tok (by simp) (by simp) hr⟩
  | .valueHole _ _, _, _, _, hr => ⟨_, .tok (by simp) (by simp) hr⟩
  | .bindingsHole _ _, _, _, _, hr => ⟨_, .tok (by simp) (by simp) hr⟩
  | .metaHole _ _, _, _, _, hr => ⟨_, .tok (by simp) (by simp) hr⟩
/-- A template without `$` has an expansion. -/
theorem subst_exists (σ : String → List TT → Prop) :
    ∀ ts : List TT, NoDollars ts → ∃ out, Subst σ ts out
  | [], _ => ⟨_, .nil⟩
  | t :: ts, h => by
    simp only [NoDollars] at h
    obtain ⟨o, ho⟩ := subst_exists σ ts h.2
    exact subst_exists_group σ t h.1 ts o ho
end

/-- In a template that has an expansion every `$` that is followed by something is
followed by a name that stands for something. -/
theorem Subst.dollarThen {σ : String → List TT → Prop} {P : TT → Prop} {ts out : List TT}
    (h : Subst σ ts out) (hd : DollarThen P ts) : ∃ x sp o, P (.ident x sp) ∧ σ x o := by
  induction h with
  | nil => cases hd
  | var h1 h2 ih =>
    cases hd with
    | here hp => exact ⟨_, _, _, hp, h1⟩
    | later hd => cases hd with
      | later hd => exact ih hd
  | group h1 h2 ih1 ih2 =>
    cases hd with
    | later hd => exact ih2 hd
    | inside hd => exact ih1 hd
  | tok h1 h2 h3 ih =>
    cases hd with
    | here hp => exact absurd rfl (h1 _)
    | later hd => exact ih hd
    | inside hd => exact absurd rfl (h2 _ _ _)
  | lastDollar => cases hd with
    | later hd => cases hd

/-- Substitution works piecewise, except between a `$` and the token after it. -/
theorem Subst.append {σ : String → List TT → Prop} {a oa : List TT} (h : Subst σ a oa)
    (hl : ∀ sp, a.getLast? ≠ some (.punct '$' sp)) {b ob : List TT} (hb : Subst σ b ob) :
    Subst σ (a ++ b) (oa ++ ob) := by
  induction h with
  | nil => exact hb
  | @var sp sp' x o rest out h1 h2 ih =>
    rw [List.append_assoc]
    refine .var h1 (ih fun s e => hl s ?_)
    cases rest with
    | nil => simp at e
    | cons y l => simpa using e
  | @group d ts ts' rest out sp h1 h2 ih1 ih2 =>
    refine .group h1 (ih2 fun s e => hl s ?_)
    cases rest with
    | nil => simp at e
    | cons y l => simpa using e
  | @tok t rest out h1 h2 h3 ih =>
    refine .tok h1 h2 (ih fun s e => hl s ?_)
    cases rest with
    | nil => simp at e
    | cons y l => simpa using e
  | @lastDollar sp => exact absurd rfl (hl sp)

theorem Subst.append_inv {σ : String → List TT → Prop} : ∀ {a b out : List TT},
    Subst σ (a ++ b) out → (∀ sp, a.getLast? ≠ some (.punct '$' sp)) →
    ∃ oa ob, out = oa ++ ob ∧ Subst σ a oa ∧ Subst σ b ob
  | [], b, out, h, _ => ⟨[], out, rfl, .nil, h⟩
  | [t], b, out, h, hl => by
    cases h with
    | var h1 h2 => exact absurd rfl (hl _)
    | group h1 h2 => exact ⟨[_], _, rfl, .group h1 .nil, h2⟩
    | tok h1 h2 h3 => exact ⟨[_], _, rfl, .tok h1 h2 .nil, h3⟩
    | lastDollar => exact absurd rfl (hl _)
  | t :: u :: a, b, out, h, hl => by
    have hl' : ∀ sp, (u :: a).getLast? ≠ some (.punct '$' sp) := by
      intro sp e; exact hl sp (by simpa using e)
    cases h with
    | @var sp sp' x o rest out h1 h2 =>
      have hl2 : ∀ sp, a.getLast? ≠ some (.punct '$' sp) := by
        intro sp e
        cases a with
        | nil => simp at e
        | cons y l => exact hl sp (by simpa using e)
      obtain ⟨oa, ob, rfl, e2, e3⟩ := Subst.append_inv (a := a) h2 hl2
      exact ⟨o ++ oa, ob, by simp, .var h1 e2, e3⟩
    | group h1 h2 =>
      obtain ⟨oa, ob, rfl, e2, e3⟩ := Subst.append_inv (a := u :: a) h2 hl'
      exact ⟨_ :: oa, ob, rfl, .group h1 e2, e3⟩
    | tok h1 h2 h3 =>
      obtain ⟨oa, ob, rfl, e2, e3⟩ := Subst.append_inv (a := u :: a) h3 hl'
      exact ⟨_ :: oa, ob, rfl, .tok h1 h2 e2, e3⟩

/-- The substitution relation is a function when the variable relation is one. -/
theorem Subst.unique {σ : String → List TT → Prop} (hσ : ∀ x o o', σ x o → σ x o' → o = o')
    {ts out : List TT} (h : Subst σ ts out) : ∀ {out'}, Subst σ ts out' → out = out' := by
  induction h with
  | nil => intro o h; cases h; rfl
  | var h1 h2 ih =>
    intro o h
    cases h with
    | var g1 g2 => rw [hσ _ _ _ h1 g1, ih g2]
    | tok g1 g2 g3 => exact absurd rfl (g1 _)
  | group h1 h2 ih1 ih2 =>
    intro o h
    cases h with
    | group g1 g2 => rw [ih1 g1, ih2 g2]
    | tok g1 g2 g3 => exact absurd rfl (g2 _ _ _)
  | tok h1 h2 h3 ih =>
    intro o h
    cases h with
    | var g1 g2 => exact absurd rfl (h1 _)
    | group g1 g2 => exact absurd rfl (h2 _ _ _)
    | tok g1 g2 g3 => rw [ih g3]
    | lastDollar => exact absurd rfl (h1 _)
  | lastDollar =>
    intro o h
    cases h with
    | tok g1 g2 g3 => exact absurd rfl (g1 _)
    | lastDollar => rfl

theorem methodStack_eq (env : Env) (s : Settings) (up : List Data) :
    methodStack env s up = methodAt env s up :: (methodStack env s up).tail := by
  induction up with
  | nil => rfl
  | cons d up ih =>
    simp only [methodStack, methodAt, attrsOver_cons, lastSet_append]
    cases lastSet (methodOf env) d.seen with
    | some m => rfl
    | none =>
      simp only [Option.toList, List.nil_append]
      rw [ih]; rfl

/-- Every hook of the output, in terms of the template of the method in force at its
target. -/
theorem hook_text {env : Env} {args : List Meta} {s : Settings} {i i' : Item}
    {uses : List Path} (hs : rootSettings env args = .ok s) (hb : s.bindings.keys.Nodup)
    (h : hooqImpls env args i = .ok (uses, i')) {p : List Nat} {d : Data} {up : List Data}
    (hu : i.chain p = some (d :: up)) (hr : reached env s (d :: up) = true) :
    ∃ n', i'.tree.sub p = some n' ∧ ∀ m ∈ n'.marks, ∃ sp c out,
      IsAnchor (d :: up) n' m.1.kind sp ∧ m.1.count = c ∧
      Subst (VarText (siteAt env s (targetUp m.1.kind (d :: up)) m.1.kind sp c)
          (StackText (siteAt env s (targetUp m.1.kind (d :: up)) m.1.kind sp c)
            (methodStack env s (targetUp m.1.kind (d :: up))).tail))
        (methodAt env s (targetUp m.1.kind (d :: up))).template out ∧
      m.1.toks = (methodAt env s (targetUp m.1.kind (d :: up))).lead ++ out.map (TT.setSpan sp) := by
  obtain ⟨n', h1, h2⟩ := C08_lexical_hooks hs hb h hu hr
  refine ⟨n', h1, fun m hm => ?_⟩
  obtain ⟨_, _, _, sp, c, h3, h4⟩ := h2 m hm
  obtain ⟨out, h5, h6⟩ := h4.toks
  rw [methodStack_eq, StackText] at h5
  refine ⟨sp, c, out, h3, h4.count, h5, ?_⟩
  rw [h6]
  cases methodAt env s (targetUp m.1.kind (d :: up)) <;> rfl

end Hooq
