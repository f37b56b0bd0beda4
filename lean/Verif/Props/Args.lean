import Verif.Proof.AttrForm
import Verif.Proof.Unwrap
import Verif.Props.Fixture

/-!
# Reading the arguments of inert attributes (C55)
-/

namespace Hooq

/-- A string argument (`some (some s)`), a comma (`some none`) or something else. -/
def argToken : TT → Option (Option String)
  | .lit (.str s) _ => some (some s)
  | .punct ',' _ => some none
  | _ => none

theorem argToken_str {t : TT} {s : String} (h : argToken t = some (some s)) : ∃ sp, t = .lit (.str s) sp := by
  unfold argToken at h
  split at h
  · cases h; exact ⟨_, rfl⟩
  · cases h
  · cases h

theorem argToken_comma {t : TT} (h : argToken t = some none) : ∃ sp, t = .punct ',' sp := by
  unfold argToken at h
  split at h
  · cases h
  · exact ⟨_, rfl⟩
  · cases h

theorem stringsOf_iff (ts : List TT) (l : List String) :
    stringsOf ts = some l ↔
      ts.map argToken = (((l.map some).intersperse none).map some) ∨
      l ≠ [] ∧ ts.map argToken = (((l.map some).intersperse none).map some) ++ [some none] := by
  induction ts using stringsOf.induct generalizing l with
  | case1 =>
    cases l with
    | nil => simp [stringsOf]
    | cons s l => cases l <;> simp [stringsOf]
  | case2 s sp =>
    cases l with
    | nil => simp [stringsOf, argToken]
    | cons a l =>
      cases l with
      | nil => simp [stringsOf, argToken]
      | cons b l => simp [stringsOf, argToken]
  | case3 s sp sp' rest ih =>
    cases l with
    | nil => simp [stringsOf, argToken]
    | cons a l =>
      simp only [stringsOf, Option.map_eq_some_iff, List.cons.injEq]
      cases l with
      | nil =>
        constructor
        · rintro ⟨k, h, rfl, rfl⟩
          have := (ih []).1 h
          simp at this
          subst this
          simp [argToken]
        · simp only [argToken, List.map_cons, List.map_nil, List.intersperse]
          rintro (h | ⟨-, h⟩)
          · simp at h
          · simp at h
            obtain ⟨rfl, rfl⟩ := h
            exact ⟨[], rfl, rfl, rfl⟩
      | cons b l =>
        simp only [argToken, List.map_cons, List.intersperse, List.cons_append, List.cons.injEq,
          Option.some.injEq, true_and, ne_eq, reduceCtorEq, not_false_eq_true]
        constructor
        · rintro ⟨k, h, rfl, rfl⟩
          have := (ih _).1 h
          rcases this with h | ⟨-, h⟩
          · exact Or.inl ⟨rfl, h⟩
          · exact Or.inr ⟨rfl, h⟩
        · rintro (⟨rfl, h⟩ | ⟨rfl, h⟩)
          · exact ⟨_, (ih (b :: l)).2 (Or.inl h), rfl, rfl⟩
          · exact ⟨_, (ih (b :: l)).2 (Or.inr ⟨by simp, h⟩), rfl, rfl⟩
  | case4 ts h1 h2 h3 =>
    have hn : stringsOf ts = none := by
      unfold stringsOf
      split
      · exact absurd rfl h1
      · exact absurd rfl (h2 _ _)
      · exact absurd rfl (h3 _ _ _ _)
      · rfl
    rw [hn]
    simp only [reduceCtorEq, false_iff, not_or, not_and]
    have nil : ts.map argToken ≠ [] := by simpa using h1
    have key : ∀ (e : List (Option (Option String))), ∀ s, ts.map argToken = some (some s) :: e →
        e = [] ∨ (∃ e', e = some none :: e') → False := by
      intro e s he hh
      cases ts with
      | nil => simp at he
      | cons t ts =>
        simp only [List.map_cons, List.cons.injEq] at he
        obtain ⟨ht, rfl⟩ := he
        obtain ⟨sp, rfl⟩ := argToken_str ht
        rcases hh with hh | ⟨e', hh⟩
        · simp only [List.map_eq_nil_iff] at hh
          subst hh
          exact h2 s sp rfl
        · cases ts with
          | nil => simp at hh
          | cons u ts =>
            simp only [List.map_cons, List.cons.injEq] at hh
            obtain ⟨sp', rfl⟩ := argToken_comma hh.1
            exact h3 s sp sp' ts rfl
    cases l with
    | nil => exact ⟨nil, fun h => absurd rfl h⟩
    | cons a l =>
      cases l with
      | nil => exact ⟨fun h => key [] a h (Or.inl rfl), fun _ h => key [some none] a h (Or.inr ⟨_, rfl⟩)⟩
      | cons b l =>
        exact ⟨fun h => key _ a h (Or.inr ⟨_, rfl⟩), fun _ h => key _ a h (Or.inr ⟨_, rfl⟩)⟩

/-- C55.  The arguments are the strings `l` exactly if the tokens, with groups without
delimiters unwrapped, are those string literals in order with commas between them, and
possibly one comma after the last; and nothing follows, not even an empty group. -/
theorem C55_strings (ts : List TT) (l : List String) :
    parseStrings ts = some l ↔ ∃ us, Unwraps true ts us ∧
      (us.map argToken = (((l.map some).intersperse none).map some) ∨
        l ≠ [] ∧ us.map argToken = (((l.map some).intersperse none).map some) ++ [some none]) := by
  simp only [parseStrings_iff, stringsOf_iff]

theorem boolOf_iff (ts : List TT) (b : Bool) :
    boolOf ts = some b ↔ ∃ sp, ts = [.ident (if b then "true" else "false") sp] := by
  unfold boolOf
  split
  · rename_i sp
    cases b <;> simp
  · rename_i sp
    cases b <;> simp
  · rename_i h1 h2
    simp only [reduceCtorEq, false_iff, not_exists]
    intro sp
    cases b
    · exact h2 sp
    · exact h1 sp

/-- C55.  The macro switch is set by `true` and by `false` alone, in groups without
delimiters or not, to that value. -/
theorem C55_bool (ts : List TT) (b : Bool) :
    parseBool ts = some b ↔ WordText (if b then "true" else "false") ts := by
  rw [parseBool_iff, WordText]
  constructor
  · rintro ⟨us, h1, h2⟩
    obtain ⟨sp, rfl⟩ := (boolOf_iff us b).1 h2
    exact ⟨sp, h1⟩
  · rintro ⟨sp, h⟩
    exact ⟨_, h, (boolOf_iff _ b).2 ⟨sp, rfl⟩⟩

/-- C55.  The strings with a leading `!` and the others, in order. -/
theorem C55_bangs (l : List String) :
    (splitInclude l).1 = l.filter (fun s => s.toList.head? ≠ some '!') ∧
    (splitInclude l).2.map (fun s => "!" ++ s) = l.filter (fun s => s.toList.head? = some '!') := by
  refine ⟨splitInclude_fst l, ?_⟩
  induction l with
  | nil => rfl
  | cons s l ih =>
    simp only [splitInclude]
    split
    · rename_i rest h
      simp only [List.map_cons, ih, List.filter_cons, h, List.head?_cons, decide_true, if_true]
      congr 1
      apply String.toList_inj.1
      simp [h]
    · rename_i h
      have : ¬ s.toList.head? = some '!' := by
        intro hh
        cases hs : s.toList with
        | nil => simp [hs] at hh
        | cons c cs => simp [hs] at hh; subst hh; exact h cs hs
      simp [ih, this]

/-- `("a", "!b",)` -/
example : parseStrings [tkStr "a", tkP ',', tkStr "!b", tkP ','] = some ["a", "!b"] ∧
    splitInclude ["a", "!b"] = (["a"], ["b"]) ∧
    parseStrings [tkStr "a", tkStr "b"] = none ∧ parseStrings [tkP ','] = none ∧
    parseBool [tkId "false"] = some false := ⟨rfl, by decide, rfl, rfl, rfl⟩

/-- `(⟦"a"⟧, ⟦⟧ "b")` is read, `("a" ⟦⟧)` is not; `(⟦⟦true⟧ ⟦⟧⟧)` is. -/
example : parseStrings [.group .none [tkStr "a"] .callSite, tkP ',', .group .none [] .callSite, tkStr "b"] =
      some ["a", "b"] ∧
    parseStrings [tkStr "a", .group .none [] .callSite] = none ∧
    parseBool [.group .none [.group .none [tkId "true"] .callSite, .group .none [] .callSite] .callSite] = some true :=
  ⟨rfl, rfl, rfl⟩

end Hooq
