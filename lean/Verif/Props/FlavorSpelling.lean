import Verif.Props.FlavorPath

/-!
# Exact spelling of flavors (C65)

Companion of C33: which strings and paths denote which flavor path, names with single
colons included.
-/

namespace Hooq

theorem sepScan_name {c rest : List Char} (h1 : '.' ∉ c) (h2 : ∀ a b, c ≠ a ++ ':' :: ':' :: b)
    (h3 : c.getLast? = some ':' → rest.head? ≠ some ':') :
    sepScan (c ++ rest) = c.map some ++ sepScan rest := by
  induction c with
  | nil => rfl
  | cons x c ih =>
    have hx : ¬ (x = ':' ∧ ∃ r, c ++ rest = ':' :: r) := by
      rintro ⟨rfl, r, hr⟩
      cases c with
      | nil => exact h3 rfl (by simp only [List.nil_append] at hr; rw [hr]; rfl)
      | cons y c =>
        simp only [List.cons_append, List.cons.injEq] at hr
        exact h2 [] c (by rw [hr.1]; rfl)
    rw [List.cons_append, sepScan_other (fun hh => h1 (by simp [hh])) hx, ih (fun hh => h1 (by simp [hh]))
      (fun a b hh => h2 (x :: a) b (by rw [hh]; rfl))
      (fun hh => h3 (by
        cases c with
        | nil => simp at hh
        | cons y c => rw [List.getLast?_cons_cons]; exact hh))]
    rfl

theorem components_spelled {s : List Char} {l : List (List Char)} (h : SpelledAs s l) :
    components (sepScan s) = l := by
  induction h with
  | @last c hc =>
    have := sepScan_name (rest := []) hc.2.1 hc.2.2 (by simp)
    rw [List.append_nil] at this
    rw [this, components_plain]
    simp [sepScan, components]
  | @dot c s l hc hs ih =>
    rw [sepScan_name hc.2.1 hc.2.2 (by simp), components_plain]
    simp [sepScan, components, ih]
  | @colons c s l hc hn hs ih =>
    rw [sepScan_name hc.2.1 hc.2.2 (fun h => absurd h hn), components_plain]
    simp [sepScan, components, ih]

theorem spelled_ne {s : List Char} {l : List (List Char)} (h : SpelledAs s l) : [] ∉ l := by
  induction h with
  | last hc => simpa using hc.1
  | dot hc _ ih => simpa using ⟨hc.1, ih⟩
  | colons hc _ _ ih => simpa using ⟨hc.1, ih⟩

theorem spelled_some {s : List Char} {l : List (List Char)} (h : SpelledAs s l) : l ≠ [] := by
  induction h <;> simp

theorem spelled_one {s : List Char} {l : List (List Char)} (h : SpelledAs s l) {c : List Char} (hl : l = [c]) :
    NameOk c := by
  cases h with
  | last h => simp only [List.cons.injEq, and_true] at hl; rw [← hl]; exact h
  | dot _ hs => simp only [List.cons.injEq] at hl; exact absurd hl.2 (spelled_some hs)
  | colons _ _ hs => simp only [List.cons.injEq] at hl; exact absurd hl.2 (spelled_some hs)

theorem first_sep (s : List Char) :
    ('.' ∉ s ∧ ∀ a b, s ≠ a ++ ':' :: ':' :: b) ∨
    ∃ c t, ('.' ∉ c ∧ ∀ a b, c ≠ a ++ ':' :: ':' :: b) ∧
      (s = c ++ '.' :: t ∨ s = c ++ ':' :: ':' :: t ∧ c.getLast? ≠ some ':') := by
  induction s with
  | nil => exact .inl ⟨by simp, by simp⟩
  | cons x s ih =>
    by_cases hd : x = '.'
    · subst hd
      exact .inr ⟨[], s, ⟨by simp, by simp⟩, .inl rfl⟩
    by_cases hc : x = ':' ∧ ∃ r, s = ':' :: r
    · obtain ⟨rfl, r, rfl⟩ := hc
      exact .inr ⟨[], r, ⟨by simp, by simp⟩, .inr ⟨rfl, by simp⟩⟩
    have grow : ∀ c, (∀ r, c = ':' :: r → ∃ r', s = ':' :: r') → '.' ∉ c ∧ (∀ a b, c ≠ a ++ ':' :: ':' :: b) →
        '.' ∉ x :: c ∧ ∀ a b, x :: c ≠ a ++ ':' :: ':' :: b := by
      rintro c hs ⟨h1, h2⟩
      refine ⟨by simp [h1, Ne.symm hd], fun a b h => ?_⟩
      cases a with
      | nil =>
        simp only [List.nil_append, List.cons.injEq] at h
        exact hc ⟨h.1, hs _ h.2⟩
      | cons y a =>
        simp only [List.cons_append, List.cons.injEq] at h
        exact h2 a b h.2
    rcases ih with h | ⟨c, t, h1, h2⟩
    · exact .inl (grow s (fun r h => ⟨r, h⟩) h)
    · refine .inr ⟨x :: c, t, grow c ?_ h1, ?_⟩
      · rintro r rfl
        rcases h2 with h2 | ⟨h2, -⟩ <;> exact ⟨_, h2⟩
      · rcases h2 with h2 | ⟨h2, h3⟩
        · exact .inl (by rw [h2]; rfl)
        · refine .inr ⟨by rw [h2]; rfl, ?_⟩
          cases c with
          | nil =>
            simp only [List.getLast?_singleton, ne_eq, Option.some.injEq]
            exact fun hx => hc ⟨hx, _, h2⟩
          | cons y c => rw [List.getLast?_cons_cons]; exact h3

theorem spelled_of_components (n : Nat) : ∀ s : List Char, s.length = n → [] ∉ components (sepScan s) →
    SpelledAs s (components (sepScan s)) := by
  induction n using Nat.strongRecOn with
  | ind n ih =>
    intro s hn hs
    rcases first_sep s with h | ⟨c, t, h1, rfl | ⟨rfl, h2⟩⟩
    · have e := sepScan_name (rest := []) h.1 h.2 (by simp)
      rw [List.append_nil] at e
      rw [e, components_plain] at hs ⊢
      simp only [sepScan, components, List.append_nil, List.mem_singleton] at hs ⊢
      exact .last ⟨Ne.symm hs, h⟩
    · rw [sepScan_name h1.1 h1.2 (by simp), components_plain] at hs ⊢
      simp only [sepScan, components, List.append_nil, List.mem_cons, not_or] at hs ⊢
      exact .dot ⟨Ne.symm hs.1, h1⟩ (ih t.length (by simp at hn; omega) t rfl hs.2)
    · rw [sepScan_name h1.1 h1.2 (fun h => absurd h h2), components_plain] at hs ⊢
      simp only [sepScan, components, List.append_nil, List.mem_cons, not_or] at hs ⊢
      exact .colons ⟨Ne.symm hs.1, h1⟩ h2 (ih t.length (by simp at hn; omega) t rfl hs.2)

/-- C65.  Which strings denote which flavor path, exactly; all others are rejected. -/
theorem C65_string (s : String) (l : List String) :
    flavorPathOfString s = .ok l ↔ SpelledAs s.toList (l.map String.toList) := by
  rw [flavorPathOfString_eq]
  constructor
  · intro h
    split at h
    · cases h
    · rename_i hne
      simp only [Except.ok.injEq] at h
      subst h
      rw [List.map_map]
      have : String.toList ∘ String.ofList = id := by funext x; simp
      rw [this, List.map_id]
      exact spelled_of_components _ _ rfl hne
  · intro h
    have hc := components_spelled h
    rw [hc, if_neg (spelled_ne h), List.map_map]
    have : String.ofList ∘ String.toList = id := by funext x; simp
    rw [this, List.map_id]

/-- C65.  Which paths denote which flavor path, exactly: a leading `::` does not matter. -/
theorem C65_path (p : Path) (l : List String) :
    flavorPathOfPath p = .ok l ↔
      l = p.segs.map (·.ident) ∧ ∀ g ∈ p.segs, g.hasArgs = false ∧ g.ident ≠ "" := flavorPathOfPath_ok

theorem displayPath_toList (x : String) (l : List String) :
    (displayPath (x :: l)).toList = x.toList ++ (l.map fun y => ':' :: ':' :: y.toList).flatten := by
  rw [displayPath_cons, spell_toList]
  simp [spellRest, Function.comp_def, NameSep.text]

/-- C65.  A displayed flavor path is read back as the same path exactly if its names are
names, and none but the last ends with a colon. -/
theorem C65_display (l : List String) :
    flavorPathOfString (displayPath l) = .ok l ↔
      l ≠ [] ∧ (∀ s ∈ l, NameOk s.toList) ∧ ∀ s ∈ l.dropLast, s.toList.getLast? ≠ some ':' := by
  rw [C65_string]
  cases l with
  | nil =>
    simp only [List.map_nil, ne_eq, not_true_eq_false, false_and, iff_false]
    exact fun h => spelled_some h rfl
  | cons x l =>
    rw [displayPath_toList]
    simp only [ne_eq, reduceCtorEq, not_false_eq_true, true_and]
    induction l generalizing x with
    | nil =>
      simp only [List.map_nil, List.flatten_nil, List.append_nil, List.map_cons, List.mem_singleton,
        forall_eq, List.dropLast_singleton, List.not_mem_nil, false_imp_iff, implies_true, and_true]
      exact ⟨fun h => spelled_one h rfl, .last⟩
    | cons y l ih =>
      have ih := ih y
      rw [List.map_cons, List.map_cons, List.flatten_cons, List.dropLast_cons_of_ne_nil (by simp)]
      simp only [List.mem_cons (a := _) (b := x), forall_eq_or_imp]
      rw [show (x.toList ++ (':' :: ':' :: y.toList ++ (l.map fun y => ':' :: ':' :: y.toList).flatten)) =
        x.toList ++ ':' :: ':' :: (y.toList ++ (l.map fun y => ':' :: ':' :: y.toList).flatten) by simp]
      constructor
      · intro h
        generalize hS : x.toList ++ ':' :: ':' :: (y.toList ++ (l.map fun y => ':' :: ':' :: y.toList).flatten) = S at h
        generalize hL : x.toList :: (y :: l).map String.toList = L at h
        cases h with
        | last h => simp at hL
        | dot h1 h2 =>
          simp only [List.cons.injEq] at hL
          rw [← hL.1] at hS
          simp at hS
        | colons h1 h2 h3 =>
          simp only [List.cons.injEq] at hL
          rw [← hL.1] at hS h1 h2
          simp only [List.append_cancel_left_eq, List.cons.injEq, true_and] at hS
          rw [← hS, ← hL.2] at h3
          have := ih.1 h3
          exact ⟨⟨h1, this.1⟩, h2, this.2⟩
      · rintro ⟨⟨h1, h2⟩, h3, h4⟩
        exact .colons h1 h3 (ih.2 ⟨h2, h4⟩)

/-- `a:.b` is the names `a:` and `b`; displayed it is `a:::b`, which is `a` and `:b`. -/
example : SpelledAs "a:.b".toList ["a:".toList, "b".toList] ∧ SpelledAs "a:::b".toList ["a".toList, ":b".toList] ∧
    flavorPathOfString (displayPath ["a:", "b"]) ≠ .ok ["a:", "b"] ∧
    flavorPathOfString (displayPath ["b", "a:"]) = .ok ["b", "a:"] := by
  refine ⟨?_, ?_, ?_, ?_⟩
  · have := (C65_string "a:.b" ["a:", "b"]).1 rfl
    exact this
  · have := (C65_string "a:::b" ["a", ":b"]).1 (by rw [flavorPathOfString_eq]; decide)
    exact this
  · rw [flavorPathOfString_eq]; decide
  · rw [flavorPathOfString_eq]; decide

end Hooq
