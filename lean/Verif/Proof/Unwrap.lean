import Verif.Spec.Help

/-!
# Groups without delimiters
-/

namespace Hooq

theorem openedAll_append (a b : List TT) : openedAll (a ++ b) = openedAll a ++ openedAll b := by
  induction a with
  | nil => simp [openedAll]
  | cons t a ih => simp [openedAll, ih]

theorem opened_plain {t : TT} (h : ∀ g sp, t ≠ .group .none g sp) : t.opened = [t] := by
  cases t with
  | group d g sp =>
    cases d with
    | none => exact absurd rfl (h g sp)
    | _ => rfl
  | _ => rfl

theorem isVoid_plain {t : TT} (h : ∀ g sp, t ≠ .group .none g sp) : t.isVoid = false := by
  cases t with
  | group d g sp =>
    cases d with
    | none => exact absurd rfl (h g sp)
    | _ => rfl
  | _ => rfl

theorem opened_inside {g : List TT} (sp : Span) (h : g ≠ []) : (TT.group .none g sp).opened = openedAll g := by
  cases g with
  | nil => exact absurd rfl h
  | cons t g => rw [TT.opened]

/-- The visible tokens are those that unwrapping gives; no empty group is left exactly if
unwrapping minds them. -/
theorem unwraps_iff (strict : Bool) (ts us : List TT) :
    Unwraps strict ts us ↔ visible ts = us ∧ (strict = true → dangling ts = false) := by
  have void : ∀ (sp : Span) (ts : List TT), visible (.group .none [] sp :: ts) = visible ts ∧
      (dangling (.group .none [] sp :: ts) = false ↔ dangling ts = false ∧ visible ts ≠ []) := by
    intro sp ts
    refine ⟨by simp [visible, openedAll, TT.opened, TT.isVoid], ?_⟩
    simp only [dangling, openedAll, TT.opened, visible, List.cons_append, List.nil_append]
    rcases List.eq_nil_or_concat (openedAll ts) with hl | ⟨l, t, hl⟩
    · simp [hl, TT.isVoid]
    · rw [hl, List.concat_eq_append, ← List.cons_append]
      simp only [List.getLast?_append, List.getLast?_singleton, Option.some_or, Option.map_some, Option.getD_some,
        List.filter_append, ne_eq]
      cases ht : t.isVoid <;> simp [ht]
  have inside : ∀ (g ts : List TT) (sp : Span), g ≠ [] → openedAll (.group .none g sp :: ts) = openedAll (g ++ ts) := by
    intro g ts sp hg
    rw [openedAll, opened_inside sp hg, openedAll_append]
  have token : ∀ (t : TT) (ts : List TT), (∀ g sp, t ≠ .group .none g sp) →
      visible (t :: ts) = t :: visible ts ∧ dangling (t :: ts) = dangling ts := by
    intro t ts ht
    simp only [visible, dangling, openedAll, opened_plain ht, List.cons_append, List.nil_append,
      List.filter_cons, isVoid_plain ht, Bool.not_false, if_true, true_and]
    rcases List.eq_nil_or_concat (openedAll ts) with hl | ⟨l, u, hl⟩
    · simp [hl, isVoid_plain ht]
    · rw [hl, List.concat_eq_append, ← List.cons_append, List.getLast?_append, List.getLast?_append]; simp
  constructor
  · intro h
    induction h with
    | nil => exact ⟨rfl, fun _ => rfl⟩
    | token ht _ ih =>
      obtain ⟨h1, h2⟩ := token _ _ ht
      exact ⟨by rw [h1, ih.1], fun h => by rw [h2]; exact ih.2 h⟩
    | inside sp hg _ ih =>
      simp only [visible, dangling] at ih ⊢
      rwa [inside _ _ sp hg]
    | empty sp _ hne ih =>
      obtain ⟨h1, h2⟩ := void sp _
      refine ⟨by rw [h1, ih.1], fun h => h2.2 ⟨ih.2 h, ?_⟩⟩
      rw [ih.1]
      exact hne h
  · have key : ∀ n, ∀ ts us : List TT, sizeOf ts < n → visible ts = us ∧ (strict = true → dangling ts = false) →
        Unwraps strict ts us := by
      intro n
      induction n with
      | zero => intro ts us h; omega
      | succ n ih =>
        rintro ts us hn ⟨rfl, hd⟩
        cases ts with
        | nil => exact .nil
        | cons t ts =>
          by_cases hp : ∃ g sp, t = .group .none g sp
          · obtain ⟨g, sp, rfl⟩ := hp
            have hsz : ∀ a b : List TT, sizeOf (a ++ b) + 1 = sizeOf a + sizeOf b := by
              intro a b
              induction a with
              | nil => simp; omega
              | cons x a iha => simp only [List.cons_append, List.cons.sizeOf_spec]; omega
            simp only [List.cons.sizeOf_spec, TT.group.sizeOf_spec] at hn
            by_cases hg : g = []
            · subst hg
              obtain ⟨h1, h2⟩ := void sp ts
              rw [h1]
              exact .empty sp (ih ts _ (by omega) ⟨rfl, fun h => (h2.1 (hd h)).1⟩) fun h => (h2.1 (hd h)).2
            · refine .inside sp hg (ih _ _ ?_ ⟨?_, ?_⟩)
              · have := hsz g ts
                omega
              · simp only [visible, inside _ _ sp hg]
              · intro h
                have := hd h
                simpa only [dangling, inside _ _ sp hg] using this
          · have ht : ∀ g sp, t ≠ .group .none g sp := by simpa using hp
            obtain ⟨h1, h2⟩ := token t ts ht
            rw [h1]
            simp only [List.cons.sizeOf_spec] at hn
            exact .token ht (ih ts _ (by omega) ⟨rfl, fun h => by rw [← h2]; exact hd h⟩)
    exact key _ ts us (Nat.lt_succ_self _)

/-- The cursor at the first visible token. -/
theorem enters_iff (ts us : List TT) : Enters ts us ↔ enteredAll ts = some us := by
  have plain : ∀ (t : TT), (∀ g sp, t ≠ .group .none g sp) → t.entered = some [t] := by
    intro t h
    cases t with
    | group d g sp =>
      cases d with
      | none => exact absurd rfl (h g sp)
      | _ => rfl
    | _ => rfl
  have app : ∀ (a b : List TT), enteredAll (a ++ b) = match enteredAll a with
      | some l => some (l ++ b)
      | none => enteredAll b := by
    intro a b
    induction a with
    | nil => simp [enteredAll]
    | cons t a ih =>
      simp only [List.cons_append, enteredAll]
      cases t.entered with
      | some l => simp
      | none => exact ih
  have inside : ∀ (g ts : List TT) (sp : Span), enteredAll (.group .none g sp :: ts) = enteredAll (g ++ ts) := by
    intro g ts sp
    rw [app, enteredAll, TT.entered]
    cases enteredAll g <;> rfl
  constructor
  · intro h
    induction h with
    | here ht => simp [enteredAll, plain _ ht]
    | inside sp _ ih => rw [inside, ih]
  · have key : ∀ n, ∀ ts us : List TT, sizeOf ts < n → enteredAll ts = some us → Enters ts us := by
      intro n
      induction n with
      | zero => intro ts us h; omega
      | succ n ih =>
        intro ts us hn h
        cases ts with
        | nil => simp [enteredAll] at h
        | cons t ts =>
          by_cases hp : ∃ g sp, t = .group .none g sp
          · obtain ⟨g, sp, rfl⟩ := hp
            have hsz : ∀ a b : List TT, sizeOf (a ++ b) + 1 = sizeOf a + sizeOf b := by
              intro a b
              induction a with
              | nil => simp; omega
              | cons x a iha => simp only [List.cons_append, List.cons.sizeOf_spec]; omega
            simp only [List.cons.sizeOf_spec, TT.group.sizeOf_spec] at hn
            have := hsz g ts
            exact .inside sp (ih _ _ (by omega) (by rw [← inside g ts sp]; exact h))
          · have ht : ∀ g sp, t ≠ .group .none g sp := by simpa using hp
            simp only [enteredAll, plain t ht, Option.some.injEq, List.cons_append, List.nil_append] at h
            subst h
            exact .here ht
    exact key _ ts us (Nat.lt_succ_self _)

/-- Reading a token leaves fewer tokens. -/
theorem enters_shorter {t : TT} {ts r : List TT} (h : Enters ts (t :: r)) :
    (openedAll r).length < (openedAll ts).length := by
  generalize hu : t :: r = us at h
  induction h with
  | here ht =>
    obtain ⟨rfl, rfl⟩ := List.cons.inj hu
    simp [openedAll, opened_plain ht]
  | @inside g ts us sp _ ih =>
    refine Nat.lt_of_lt_of_le (ih hu) ?_
    by_cases hg : g = []
    · subst hg; simp [openedAll, TT.opened]
    · rw [openedAll_append, openedAll, opened_inside sp hg]
      exact Nat.le_refl _

theorem parseStrings_iff (ts : List TT) (l : List String) :
    parseStrings ts = some l ↔ ∃ us, Unwraps true ts us ∧ stringsOf us = some l := by
  simp only [unwraps_iff, parseStrings]
  cases dangling ts <;> simp

theorem parseBool_iff (ts : List TT) (b : Bool) :
    parseBool ts = some b ↔ ∃ us, Unwraps false ts us ∧ boolOf us = some b := by
  simp [unwraps_iff, parseBool]

end Hooq
