import Verif.Spec.AttrForm
import Verif.Proof.AttrSpec

/-!
# Attributes are accepted exactly when well-formed
-/

namespace Hooq

/-! ## Hook target lists -/

theorem parseFrom_ok {l : List String} {sw0 sw : Targets} (h : Targets.parseFrom sw0 l = .ok sw) :
    (∀ s ∈ l, KnownTarget s) ∧
    ∀ k, sw.has k = true ↔ sw0.has k = true ∨ ∃ s ∈ l, NamesKind s k := by
  induction l generalizing sw0 with
  | nil =>
    simp only [Targets.parseFrom, Except.ok.injEq] at h
    subst h; simp
  | cons s l ih =>
    simp only [Targets.parseFrom] at h
    split at h
    · rename_i hs
      obtain ⟨h1, h2⟩ := ih h
      have hk : KnownTarget s := by
        rcases hs with rfl | rfl
        · exact ⟨[.question], by simp [targetNames]⟩
        · exact ⟨[.question], by simp [targetNames]⟩
      have hn : ∀ k, NamesKind s k ↔ k = .question := by
        intro k; rcases hs with rfl | rfl <;> simp [NamesKind, targetNames]
      refine ⟨fun x hx => (List.mem_cons.1 hx).elim (· ▸ hk) (h1 x), fun k => ?_⟩
      rw [h2]
      simp only [List.mem_cons, exists_eq_or_imp, hn]
      cases k <;> simp [Targets.has]
    · split at h
      · rename_i hs
        subst hs
        obtain ⟨h1, h2⟩ := ih h
        have hn : ∀ k, NamesKind "return" k ↔ k = .ret := by
          intro k; simp [NamesKind, targetNames]
        refine ⟨fun x hx => (List.mem_cons.1 hx).elim
          (· ▸ ⟨[.ret], by simp [targetNames]⟩) (h1 x), fun k => ?_⟩
        rw [h2]
        simp only [List.mem_cons, exists_eq_or_imp, hn]
        cases k <;> simp [Targets.has]
      · split at h
        · rename_i hs
          obtain ⟨h1, h2⟩ := ih h
          have hk : KnownTarget s := by
            rcases hs with rfl | rfl | rfl | rfl <;> exact ⟨[.tail], by simp [targetNames]⟩
          have hn : ∀ k, NamesKind s k ↔ k = .tail := by
            intro k; rcases hs with rfl | rfl | rfl | rfl <;> simp [NamesKind, targetNames]
          refine ⟨fun x hx => (List.mem_cons.1 hx).elim (· ▸ hk) (h1 x), fun k => ?_⟩
          rw [h2]
          simp only [List.mem_cons, exists_eq_or_imp, hn]
          cases k <;> simp [Targets.has]
        · split at h
          · rename_i hs
            subst hs
            obtain ⟨h1, h2⟩ := ih h
            have hn : ∀ k, NamesKind "all" k := by
              intro k; cases k <;> simp [NamesKind, targetNames]
            refine ⟨fun x hx => (List.mem_cons.1 hx).elim
              (· ▸ ⟨[.question, .ret, .tail], by simp [targetNames]⟩) (h1 x), fun k => ?_⟩
            rw [h2]
            simp only [List.mem_cons, exists_eq_or_imp, hn]
            cases k <;> simp [Targets.has]
          · simp at h

theorem parseFrom_error {l : List String} {sw0 : Targets} {e : String}
    (h : Targets.parseFrom sw0 l = .error e) :
    ∃ pre post, l = pre ++ e :: post ∧ (∀ s ∈ pre, KnownTarget s) ∧ ¬ KnownTarget e := by
  induction l generalizing sw0 with
  | nil => simp [Targets.parseFrom] at h
  | cons s l ih =>
    have step : ∀ sw, KnownTarget s → Targets.parseFrom sw l = .error e →
        ∃ pre post, s :: l = pre ++ e :: post ∧ (∀ s ∈ pre, KnownTarget s) ∧ ¬ KnownTarget e := by
      intro sw hk h
      obtain ⟨pre, post, rfl, h2, h3⟩ := ih h
      exact ⟨s :: pre, post, rfl, fun x hx => (List.mem_cons.1 hx).elim (· ▸ hk) (h2 x), h3⟩
    simp only [Targets.parseFrom] at h
    split at h
    · rename_i hs
      refine step _ ?_ h
      rcases hs with rfl | rfl <;> exact ⟨[.question], by simp [targetNames]⟩
    · rename_i n1
      split at h
      · rename_i hs; subst hs; exact step _ ⟨[.ret], by simp [targetNames]⟩ h
      · rename_i n2
        split at h
        · rename_i hs
          refine step _ ?_ h
          rcases hs with rfl | rfl | rfl | rfl <;> exact ⟨[.tail], by simp [targetNames]⟩
        · rename_i n3
          split at h
          · rename_i hs; subst hs
            exact step _ ⟨[.question, .ret, .tail], by simp [targetNames]⟩ h
          · rename_i n4
            simp only [Except.error.injEq] at h
            subst h
            refine ⟨[], l, rfl, by simp, ?_⟩
            rintro ⟨k, hk⟩
            simp only [targetNames, List.mem_cons, Prod.mk.injEq, List.not_mem_nil, or_false] at hk
            simp only [not_or] at n1 n3
            rcases hk with hk | hk | hk | hk | hk | hk | hk | hk
            · exact n1.1 hk.1
            · exact n1.2 hk.1
            · exact n2 hk.1
            · exact n3.1 hk.1
            · exact n3.2.1 hk.1
            · exact n3.2.2.1 hk.1
            · exact n3.2.2.2 hk.1
            · exact n4 hk.1

theorem targets_parse_ok_iff (l : List String) :
    (∃ sw, Targets.parse l = .ok sw) ↔ ∀ s ∈ l, KnownTarget s := by
  constructor
  · rintro ⟨sw, h⟩; exact (parseFrom_ok h).1
  · intro h
    cases hp : Targets.parse l with
    | ok sw => exact ⟨sw, rfl⟩
    | error e =>
      obtain ⟨pre, post, rfl, _, h3⟩ := parseFrom_error hp
      exact absurd (h e (by simp)) h3

/-! ## Single attributes -/

theorem flavorOfValue_ok_iff (env : Env) (v : Value) (s : String) :
    (∃ f, flavorOfValue env v s = .ok f) ↔ ∃ f, flavorOf env v = some f := by
  constructor
  · rintro ⟨f, h⟩; exact ⟨f, flavorOf_eq h⟩
  · rintro ⟨f, h⟩
    simp only [flavorOf] at h
    cases h' : flavorOfValue env v "" with
    | error e => rw [h'] at h; simp [Except.toOption] at h
    | ok g =>
      refine ⟨g, ?_⟩
      simp only [flavorOfValue] at h' ⊢
      cases hv : v.view with
      | path p => simpa [getFlavorPath, hv] using h'
      | litStr p => simpa [getFlavorPath, hv] using h'
      | other => simp [getFlavorPath, hv, bind, Except.bind] at h'

theorem except_bind_ok_iff {ε α β : Type} {x : Except ε α} {f : α → β} :
    (∃ b, (x >>= fun a => Except.ok (f a)) = .ok b) ↔ ∃ a, x = .ok a := by
  cases x with
  | error e => simp [bind, Except.bind]
  | ok a => simp [bind, Except.bind]

/-- The three outcomes of `get_binding_name`. -/
theorem getBindingName_cases (p : Path) :
    ((∃ b, getBindingName p = .ok (some b)) ∧ p.IsHooqPair) ∨
    (getBindingName p = .ok none ∧ ¬ p.IsHooqPair ∧
      ∀ a : Attr, a.getPath = p → a.isInert = false) ∨
    ((∃ e, getBindingName p = .error e) ∧ ¬ p.IsHooqPair ∧
      ∀ a : Attr, a.getPath = p → a.isInert = true) := by
  cases hg : getBindingName p with
  | error e =>
    right; right
    simp only [getBindingName] at hg
    split at hg
    · simp at hg
    · rename_i s rest hs
      split at hg
      · simp at hg
      · rename_i hq
        split at hg
        · simp at hg
        · simp at hg
        · rename_i h1 h2
          refine ⟨⟨e, rfl⟩, ?_, ?_⟩
          · rintro ⟨x, y, hxy, _⟩
            rw [hs] at hxy
            exact h2 y (List.cons.inj hxy).2
          · intro a ha
            simp only [Meta.isInert, ha, hs]
            cases rest with
            | nil => exact absurd rfl h1
            | cons y ys => simpa using hq
  | ok o =>
    cases o with
    | some b =>
      left
      obtain ⟨s, t, h1, h2, _⟩ := getBindingName_some hg
      exact ⟨⟨b, rfl⟩, s, t, h1, h2⟩
    | none =>
      right; left
      refine ⟨rfl, ?_, fun a ha => getBindingName_none hg a ha⟩
      rintro ⟨x, y, hxy, hx⟩
      simp [getBindingName, hxy, hx] at hg

theorem hooqPath_pair (n : String) : (hooqPath n).IsHooqPair := ⟨_, _, rfl, rfl⟩

theorem not_inert_ne {a : Attr} (h : a.isInert = false) (n : String) : a.getPath ≠ hooqPath n := by
  intro e
  simp [Meta.isInert, e, hooqPath, Path.ofIdents] at h

theorem isHooqPair_inert {a : Attr} (h : a.getPath.IsHooqPair) : a.isInert = true := by
  obtain ⟨x, y, h1, h2⟩ := h
  simp [Meta.isInert, h1, h2]

/-- An attribute is accepted exactly when it is well-formed, whatever was collected
before. -/
theorem inertStep_ok_iff (env : Env) (acc : Inert) (a : Attr) :
    (∃ r, inertStep env acc a = .ok r) ↔ AttrOk env a := by
  cases a with
  | path p =>
    simp only [inertStep, AttrOk]
    split
    · rename_i hp; subst hp; simp
    · rename_i n1
      split
      · rename_i hp; subst hp; simp
      · rename_i n2
        rcases getBindingName_cases p with ⟨⟨b, hb⟩, h2⟩ | ⟨hb, h2, h3⟩ | ⟨⟨e, hb⟩, h2, h3⟩
        · simp [hb, bind, Except.bind, n1, n2, isHooqPair_inert (a := .path p) h2]
        · simp [hb, bind, Except.bind, h3 (.path p) rfl]
        · simp [hb, bind, Except.bind, n1, n2, h3 (.path p) rfl]
  | list p ts =>
    simp only [inertStep, AttrOk]
    split
    · rename_i hp; subst hp; simp
    · rename_i n1
      split
      · rename_i hp; subst hp
        simp only [isInert_hooqPath_list, hooqPath_inj, List.map_cons, List.map_nil, List.mem_cons,
          List.not_mem_nil, or_false, true_and]
        cases hps : parseStrings ts with
        | none => simp
        | some l =>
          simp only
          cases hpt : Targets.parse l with
          | ok sw =>
            have := (targets_parse_ok_iff l).1 ⟨sw, hpt⟩
            simp only [Except.ok.injEq, exists_eq', true_iff]
            exact .inr (.inr (.inl ⟨l, rfl, this⟩))
          | error e =>
            have : ¬ ∀ s ∈ l, KnownTarget s := by
              rw [← targets_parse_ok_iff, hpt]; simp
            simp only [reduceCtorEq, exists_false, false_iff]
            simp
            simpa using this
      · rename_i n2
        split
        · rename_i hp; subst hp
          cases hps : parseStrings ts <;> simp [isInert_hooqPath_list, hooqPath_inj]
        · rename_i n3
          split
          · rename_i hp; subst hp
            cases hps : parseStrings ts <;> simp [isInert_hooqPath_list, hooqPath_inj]
          · rename_i n4
            split
            · rename_i hp; subst hp
              cases hps : parseStrings ts <;> simp [isInert_hooqPath_list, hooqPath_inj]
            · rename_i n5
              split
              · rename_i hp; subst hp
                cases hps : parseBool ts <;> simp [isInert_hooqPath_list, hooqPath_inj]
              · rename_i n6
                split
                · rename_i hp
                  have hi : Meta.isInert (.list p ts) = true := by
                    rcases hp with rfl | rfl <;> rfl
                  have hm : p ∈ ["binding", "var"].map hooqPath := by
                    rcases hp with rfl | rfl <;> simp
                  cases hpn : env.parseNameValue ts with
                  | none => simp [hi, n1, n2, n3, n4, n5, n6]
                  | some r =>
                    obtain ⟨q, v⟩ := r
                    simp only
                    split
                    · rename_i b
                      simp only [Except.ok.injEq, exists_eq', true_iff]
                      exact .inr (.inr (.inr (.inr (.inr ⟨hm, b, v, rfl⟩))))
                    · rename_i hne
                      simp only [reduceCtorEq, exists_false, false_iff]
                      simp only [hi, n1, n2, n3, n4, n5, n6, List.map_cons, List.map_nil,
                        List.mem_cons, List.not_mem_nil, or_false, false_or, false_and,
                        Option.some.injEq, Prod.mk.injEq, reduceCtorEq]
                      rintro ⟨_, x, v', h, _⟩
                      exact hne x (by rw [h]; rfl)
                · rename_i n7
                  simp only [not_or] at n7
                  rcases getBindingName_cases p with ⟨⟨b, hb⟩, h2⟩ | ⟨hb, h2, h3⟩ | ⟨⟨e, hb⟩, h2, h3⟩
                  · simp [hb, bind, Except.bind, n1, n2, n3, n4, n5, n6, n7,
                      isHooqPair_inert (a := .list p ts) h2]
                  · simp [hb, bind, Except.bind, h3 (.list p ts) rfl]
                  · simp [hb, bind, Except.bind, n1, n2, n3, n4, n5, n6, n7, h3 (.list p ts) rfl]
  | nv p v =>
    simp only [inertStep, AttrOk]
    split
    · rename_i hp; subst hp
      rw [except_bind_ok_iff, flavorOfValue_ok_iff]
      simp [isInert_hooqPath_nv, settingNames]
    · rename_i n1
      split
      · rename_i hp; subst hp
        rw [except_bind_ok_iff, flavorOfValue_ok_iff]
        simp [isInert_hooqPath_nv, settingNames]
      · rename_i n2
        split
        · rename_i hp; subst hp
          rw [except_bind_ok_iff, flavorOfValue_ok_iff]
          simp [isInert_hooqPath_nv, settingNames]
        · rename_i n3
          split
          · rename_i hp; subst hp
            rw [except_bind_ok_iff, flavorOfValue_ok_iff]
            simp [isInert_hooqPath_nv, settingNames]
          · rename_i n4
            split
            · rename_i hp; subst hp
              simp [isInert_hooqPath_nv, settingNames, hooqPath_inj]
            · rename_i n5
              split
              · rename_i hp; subst hp
                rw [except_bind_ok_iff, flavorOfValue_ok_iff]
                simp [isInert_hooqPath_nv, settingNames]
              · rename_i n6
                split
                · rename_i hp; subst hp
                  rw [except_bind_ok_iff, flavorOfValue_ok_iff]
                  simp [isInert_hooqPath_nv, settingNames]
                · rename_i n7
                  split
                  · rename_i hp; subst hp
                    rw [except_bind_ok_iff, flavorOfValue_ok_iff]
                    simp [isInert_hooqPath_nv, settingNames]
                  · rename_i n8
                    rcases getBindingName_cases p with ⟨⟨b, hb⟩, h2⟩ | ⟨hb, h2, h3⟩ | ⟨⟨e, hb⟩, h2, h3⟩
                    · simp [hb, bind, Except.bind, settingNames, n1, n2, n3, n4, n5, n6, n7, n8, h2]
                    · simp [hb, bind, Except.bind, h3 (.nv p v) rfl]
                    · simp [hb, bind, Except.bind, n1, n2, n3, n4, n6, n7, n8, h2,
                        h3 (.nv p v) rfl]

/-- The attributes of a node are accepted exactly when each of them is well-formed. -/
theorem extractFrom_ok_iff (env : Env) (acc : Inert) (attrs : List Attr) :
    (∃ r, extractFrom env acc attrs = .ok r) ↔ ∀ a ∈ attrs, AttrOk env a := by
  induction attrs generalizing acc with
  | nil => simp [extractFrom]
  | cons a rest ih =>
    simp only [extractFrom, List.mem_cons, forall_eq_or_imp]
    rw [← inertStep_ok_iff env acc a]
    cases hs : inertStep env acc a with
    | error e => simp [bind, Except.bind]
    | ok r =>
      obtain ⟨acc1, keep⟩ := r
      rw [← ih acc1]
      cases hr : extractFrom env acc1 rest with
      | error e => simp [hr, bind, Except.bind]
      | ok r => simp [hr, bind, Except.bind]

end Hooq
