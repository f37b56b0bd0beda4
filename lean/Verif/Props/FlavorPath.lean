import Verif.Spec.Flavor
import Verif.Proof.Expand
import Verif.Proof.Store
import Verif.Props.Fixture

/-!
# Spelling and lookup of flavors (C33, C34)
-/

namespace Hooq

/-! ## Splitting -/

/-- Split a scanned string at the separators. -/
def components : List (Option Char) → List (List Char)
  | [] => [[]]
  | none :: l => [] :: components l
  | some c :: l =>
    match components l with
    | [] => [[c]]
    | y :: ys => (c :: y) :: ys

theorem components_ne (l : List (Option Char)) : components l ≠ [] := by
  cases l with
  | nil => simp [components]
  | cons x l =>
    cases x with
    | none => simp [components]
    | some c => simp only [components]; split <;> simp

theorem splitOnColons_ne (cs : List Char) : splitOnColons cs ≠ [] := by
  unfold splitOnColons
  split
  · simp
  · simp
  · split <;> simp

theorem sepScan_other {c : Char} {cs : List Char} (h : c ≠ '.') (h2 : ¬ (c = ':' ∧ ∃ r, cs = ':' :: r)) :
    sepScan (c :: cs) = some c :: sepScan cs := by
  rw [sepScan]
  · exact h
  · intro r hc hr; exact h2 ⟨hc, r, hr⟩

theorem splitOnColons_other {c : Char} {cs : List Char} (h2 : ¬ (c = ':' ∧ ∃ r, cs = ':' :: r)) :
    splitOnColons (c :: cs) = match splitOnColons cs with
      | [] => [[c]]
      | y :: ys => (c :: y) :: ys := by
  rw [splitOnColons]
  · cases splitOnColons cs <;> rfl
  · intro r hc hr; exact h2 ⟨hc, r, hr⟩

/-- The two nested splits are one scan. -/
theorem split_components (cs : List Char) :
    ((splitOnChar '.' cs).map splitOnColons).flatten = components (sepScan cs) := by
  generalize hn : cs.length = n
  induction n using Nat.strong_induction_on generalizing cs with
  | _ n ih =>
    cases cs with
    | nil => rfl
    | cons c cs =>
      simp only [List.length_cons] at hn
      by_cases hdot : c = '.'
      · subst hdot
        have := ih cs.length (by omega) cs rfl
        simp only [sepScan, components, splitOnChar, if_true, List.map_cons, List.flatten_cons, this]
        simp [splitOnColons]
      · by_cases hcol : c = ':' ∧ ∃ r, cs = ':' :: r
        · obtain ⟨rfl, r, rfl⟩ := hcol
          have := ih r.length (by simp at hn; omega) r rfl
          simp only [sepScan, components, splitOnChar, if_neg (show ¬ (':' = '.') by decide), ← this]
          cases hs : splitOnChar '.' r with
          | nil => exact absurd hs (by unfold splitOnChar; split <;> (try simp) ; split <;> (try simp) ; split <;> simp)
          | cons y ys => simp [splitOnColons]
        · have := ih cs.length (by omega) cs rfl
          rw [sepScan_other hdot hcol, components, ← this]
          simp only [splitOnChar, if_neg hdot]
          cases hs : splitOnChar '.' cs with
          | nil => exact absurd hs (by unfold splitOnChar; split <;> (try simp) ; split <;> (try simp) ; split <;> simp)
          | cons y ys =>
            simp only [List.map_cons, List.flatten_cons]
            have hy : ¬ (c = ':' ∧ ∃ r, y = ':' :: r) := by
              rintro ⟨rfl, r, rfl⟩
              apply hcol
              refine ⟨rfl, ?_⟩
              cases cs with
              | nil => simp [splitOnChar] at hs
              | cons x xs =>
                simp only [splitOnChar] at hs
                split at hs
                · simp at hs
                · split at hs
                  · simp at hs; exact ⟨_, by rw [hs.1.1]⟩
                  · simp at hs; exact ⟨_, by rw [hs.1.1]⟩
            rw [splitOnColons_other hy]
            cases hz : splitOnColons y with
            | nil => exact absurd hz (splitOnColons_ne y)
            | cons z zs => simp

theorem components_head_nil (l : List (Option Char)) :
    (components l).head? = some [] ↔ l = [] ∨ l.head? = some none := by
  cases l with
  | nil => simp [components]
  | cons x l =>
    cases x with
    | none => simp [components]
    | some c =>
      simp only [components]
      split <;> simp

theorem components_empty (l : List (Option Char)) : [] ∈ components l ↔ EmptyComponent l := by
  have key : ∀ l : List (Option Char), l ≠ [] →
      ([] ∈ (components l).tail ↔ l.getLast? = some none ∨ ∃ a b, l = a ++ none :: none :: b) := by
    intro l
    induction l with
    | nil => simp
    | cons x l ih =>
      intro _
      by_cases hl : l = []
      · subst hl
        cases x with
        | none => simp [components]
        | some c =>
          simp only [components, List.tail_cons, List.not_mem_nil, List.getLast?_singleton,
            Option.some.injEq, reduceCtorEq, false_or, false_iff]
          rintro ⟨a, b, h⟩
          have := congrArg List.length h
          simp at this; omega
      · have ih := ih hl
        have hlast : (x :: l).getLast? = l.getLast? := by
          cases l with
          | nil => exact absurd rfl hl
          | cons y l => exact List.getLast?_cons_cons
        cases x with
        | some c =>
          have e : (components (some c :: l)).tail = (components l).tail := by
            simp only [components]
            cases hc : components l with
            | nil => exact absurd hc (components_ne l)
            | cons y ys => rfl
          rw [e, ih, hlast]
          apply or_congr_right
          constructor
          · rintro ⟨a, b, h⟩; exact ⟨some c :: a, b, by rw [h]; rfl⟩
          · rintro ⟨a, b, h⟩
            cases a with
            | nil => simp at h
            | cons z a => simp at h; exact ⟨a, b, h.2⟩
        | none =>
          have e : (components (none :: l)).tail = components l := by simp [components]
          rw [e, hlast]
          have hsplit : [] ∈ components l ↔ (components l).head? = some [] ∨ [] ∈ (components l).tail := by
            cases hc : components l with
            | nil => exact absurd hc (components_ne l)
            | cons y ys => simp [eq_comm]
          rw [hsplit, ih, components_head_nil]
          simp only [hl, false_or]
          constructor
          · rintro (h | h | ⟨a, b, h⟩)
            · right
              cases l with
              | nil => simp at h
              | cons y l => simp at h; subst h; exact ⟨[], l, rfl⟩
            · exact .inl h
            · exact .inr ⟨none :: a, b, by rw [h]; rfl⟩
          · rintro (h | ⟨a, b, h⟩)
            · exact .inr (.inl h)
            · cases a with
              | nil => simp at h; exact .inl (by rw [h]; rfl)
              | cons z a => simp at h; exact .inr (.inr ⟨a, b, h.2⟩)
  have hsplit : [] ∈ components l ↔ (components l).head? = some [] ∨ [] ∈ (components l).tail := by
    cases hc : components l with
    | nil => exact absurd hc (components_ne l)
    | cons y ys => simp [eq_comm]
  rw [hsplit, components_head_nil, EmptyComponent]
  by_cases hl : l = []
  · simp [hl]
  · rw [key l hl]
    simp only [hl, false_or]

theorem mapM_components (l : List (List Char)) :
    (l.mapM fun cs => if cs.isEmpty then Except.error FlavorPathErr.empty else Except.ok (String.ofList cs))
      = if [] ∈ l then Except.error FlavorPathErr.empty else Except.ok (l.map String.ofList) := by
  induction l with
  | nil => rfl
  | cons x l ih =>
    rw [List.mapM_cons, ih]
    cases x with
    | nil => rfl
    | cons c x =>
      simp only [List.isEmpty_cons, List.mem_cons, reduceCtorEq, false_or, Bool.false_eq_true, if_false]
      split <;> rfl

theorem flavorPathOfString_eq (s : String) :
    flavorPathOfString s = if [] ∈ components (sepScan s.toList) then .error .empty
      else .ok ((components (sepScan s.toList)).map String.ofList) := by
  rw [flavorPathOfString, split_components, mapM_components]

/-! ## C33 -/

/-- C33, for strings.  A string is rejected exactly when it has an empty component: it
is empty, begins or ends with a separator, or has two separators in a row. -/
theorem C33_string_rejected_partial (s : String) :
    (∃ e, flavorPathOfString s = .error e) ↔ EmptyComponent (sepScan s.toList) := by
  rw [flavorPathOfString_eq, ← components_empty]
  split <;> simp [*]

theorem sepScan_plain {s : List Char} (h : ∀ c ∈ s, c ≠ ':' ∧ c ≠ '.') (rest : List Char) :
    sepScan (s ++ rest) = s.map some ++ sepScan rest := by
  induction s with
  | nil => rfl
  | cons c s ih =>
    rw [List.cons_append, sepScan_other (h c (by simp)).2 (fun hh => (h c (by simp)).1 hh.1),
      ih fun c hc => h c (by simp [hc])]
    rfl

theorem components_plain (s : List Char) (rest : List (Option Char)) :
    components (s.map some ++ rest) = match components rest with
      | [] => [s]
      | y :: ys => (s ++ y) :: ys := by
  induction s with
  | nil =>
    cases h : components rest with
    | nil => exact absurd h (components_ne rest)
    | cons y ys => simp [h]
  | cons c s ih =>
    simp only [List.map_cons, List.cons_append, components, ih]
    cases components rest <;> rfl

/-- Text of components, each after its own separator. -/
def spellRest (rest : List (NameSep × String)) : List Char :=
  (rest.map fun x => x.1.text.toList ++ x.2.toList).flatten

theorem spell_toList (first : String) (rest : List (NameSep × String)) :
    (spell first rest).toList = first.toList ++ spellRest rest := by
  induction rest generalizing first with
  | nil => simp [spell, spellRest]
  | cons x rest ih =>
    have := ih (first ++ x.1.text ++ x.2)
    simp only [spell, List.foldl_cons] at this ⊢
    rw [this]
    simp [spellRest, String.toList_append]

theorem components_spellRest {rest : List (NameSep × String)} (h : ∀ x ∈ rest, PlainName x.2) :
    components (sepScan (spellRest rest)) = [] :: rest.map fun x => x.2.toList := by
  induction rest with
  | nil => rfl
  | cons x rest ih =>
    have ih := ih fun y hy => h y (by simp [hy])
    have hx := h x (by simp)
    have e : spellRest (x :: rest) = x.1.text.toList ++ (x.2.toList ++ spellRest rest) := by
      simp [spellRest]
    have e2 : sepScan (x.1.text.toList ++ (x.2.toList ++ spellRest rest))
        = none :: sepScan (x.2.toList ++ spellRest rest) := by
      cases x.1 <;> rfl
    rw [e, e2, sepScan_plain hx.2]
    simp only [components, components_plain, ih]
    simp

theorem spelled {first : String} {rest : List (NameSep × String)} (h0 : PlainName first)
    (h : ∀ x ∈ rest, PlainName x.2) :
    flavorPathOfString (spell first rest) = .ok (first :: rest.map Prod.snd) := by
  have e : components (sepScan (spell first rest).toList)
      = first.toList :: rest.map fun x => x.2.toList := by
    rw [spell_toList, sepScan_plain h0.2, components_plain, components_spellRest h]
    simp
  rw [flavorPathOfString_eq, e, if_neg]
  · simp [Function.comp_def]
  · simp only [List.mem_cons, List.mem_map, not_or, not_exists, not_and]
    have hne : ∀ s : String, s ≠ "" → s.toList ≠ [] := by
      intro s hs hh; exact hs (by rw [← String.ofList_toList (s := s), hh])
    exact ⟨fun hh => hne _ h0.1 hh.symm, fun x hx hh => hne _ (h x hx).1 hh⟩

theorem flavorPathOfPath_ok {p : Path} {l : List String} : flavorPathOfPath p = .ok l ↔
    l = p.segs.map (·.ident) ∧ ∀ g ∈ p.segs, g.hasArgs = false ∧ g.ident ≠ "" := by
  simp only [flavorPathOfPath]
  induction p.segs generalizing l with
  | nil =>
    simp only [List.mapM_nil, pure, Except.pure, Except.ok.injEq, List.map_nil, List.not_mem_nil,
      false_imp_iff, implies_true, and_true]
    exact eq_comm
  | cons g segs ih =>
    rw [List.mapM_cons]
    by_cases h1 : g.hasArgs = true
    · simp [h1, bind, Except.bind]
    · by_cases h2 : g.ident = ""
      · simp [h1, h2, bind, Except.bind]
      · simp only [h1, h2, Bool.false_eq_true, if_false, bind, Except.bind]
        generalize hx : List.mapM (m := Except FlavorPathErr) _ segs = x at ih ⊢
        cases x with
        | error e =>
          simp only [reduceCtorEq, false_iff, not_and] at ih ⊢
          intro _ hh
          exact ih rfl fun g hg => hh g (by simp [hg])
        | ok l' =>
          have ih := (@ih l').1 rfl
          simp only [pure, Except.pure, Except.ok.injEq, List.map_cons, List.mem_cons, forall_eq_or_imp]
          constructor
          · rintro rfl
            exact ⟨by rw [ih.1], ⟨by simpa using h1, h2⟩, ih.2⟩
          · rintro ⟨rfl, -, -⟩; rw [ih.1]

/-- C33, for paths.  A path is rejected exactly when a segment has generic arguments or
an empty name.  Missing from the full statement: a leading `::` is not rejected, see
`C33_leading_colon`. -/
theorem C33_path_rejected_partial (p : Path) :
    (∃ e, flavorPathOfPath p = .error e) ↔ ∃ g ∈ p.segs, g.hasArgs = true ∨ g.ident = "" := by
  have := @flavorPathOfPath_ok p
  cases h : flavorPathOfPath p with
  | ok l =>
    have hl := ((this (l := l)).1 h).2
    simp only [reduceCtorEq, exists_false, false_iff, not_exists, not_and, not_or]
    exact fun g hg => ⟨by simp [(hl g hg).1], (hl g hg).2⟩
  | error e =>
    simp only [Except.error.injEq, exists_eq', true_iff]
    by_contra hc
    simp only [not_exists, not_and, not_or] at hc
    have := (this (l := p.segs.map (·.ident))).2 ⟨rfl, fun g hg => ⟨by simpa using (hc g hg).1, (hc g hg).2⟩⟩
    rw [h] at this; cases this

/-- C33, negation witness: a leading `::` on a path makes no difference, whereas the
string with the same text is rejected. -/
theorem C33_leading_colon (p : Path) (b : Bool) :
    flavorPathOfPath { p with leading := b } = flavorPathOfPath p := rfl

/-- C33.  A path and every string that spells the same components, with any mixture of
`.` and `::`, denote the same flavor. -/
theorem C33_same_flavor_partial {first : String} {rest : List (NameSep × String)} (h0 : PlainName first)
    (h : ∀ x ∈ rest, PlainName x.2) (lead : Bool) :
    flavorPathOfString (spell first rest) = .ok (first :: rest.map Prod.snd) ∧
    flavorPathOfPath { leading := lead, segs := (first :: rest.map Prod.snd).map fun s => { ident := s } }
      = .ok (first :: rest.map Prod.snd) := by
  refine ⟨spelled h0 h, flavorPathOfPath_ok.2 ⟨by simp [Function.comp_def], ?_⟩⟩
  simp only [List.map_cons, List.mem_cons, List.mem_map]
  rintro g (rfl | ⟨_, ⟨x, hx, rfl⟩, rfl⟩)
  · exact ⟨rfl, h0.1⟩
  · exact ⟨rfl, (h x hx).1⟩

theorem displayPath_cons (first : String) (rest : List String) :
    displayPath (first :: rest) = spell first (rest.map fun s => (NameSep.colons, s)) := by
  induction rest generalizing first with
  | nil => simp [displayPath, spell]
  | cons x rest ih =>
    have := ih (first ++ "::" ++ x)
    simp only [displayPath] at this ⊢
    rw [String.intercalate_cons_cons]
    simp only [spell, List.map_cons, List.foldl_cons, NameSep.text] at this ⊢
    rw [← this]
    cases rest with
    | nil => simp
    | cons y rest => rw [String.intercalate_cons_cons, String.intercalate_cons_cons]; simp [String.append_assoc]

/-- C33.  Displaying a path of plain names and parsing it again gives the same path. -/
theorem C33_display_partial {l : List String} (hl : l ≠ []) (h : ∀ s ∈ l, PlainName s) :
    flavorPathOfString (displayPath l) = .ok l := by
  cases l with
  | nil => exact absurd rfl hl
  | cons first rest =>
    rw [displayPath_cons, spelled (h first (by simp))]
    · simp [Function.comp_def]
    · simp only [List.mem_map]
      rintro _ ⟨s, hs, rfl⟩
      exact h s (by simp [hs])

/-- C33, negation witness: a component may end in a single `:`, and then the displayed
path reads differently. -/
theorem C33_display_colon :
    flavorPathOfString "a:.b" = .ok ["a:", "b"] ∧
    flavorPathOfString (displayPath ["a:", "b"]) = .ok ["a", ":b"] := by
  constructor
  · rfl
  · rw [flavorPathOfString_eq]; decide

example : PlainName "log" ∧ spell "log" [(.dot, "warn"), (.colons, "x")] = "log.warn::x" := by
  refine ⟨⟨by decide, by decide⟩, by decide⟩

example : EmptyComponent (sepScan "a.::b".toList) ∧ ¬ EmptyComponent (sepScan "a.b::c".toList) := by
  rw [← C33_string_rejected_partial, ← C33_string_rejected_partial]
  exact ⟨⟨_, rfl⟩, fun ⟨e, h⟩ => by cases h⟩

/-! ## C34 -/

theorem uniq_mem {l : List (String × Flavor)} (h : FlavorsUniq l) {n : String} {f : Flavor}
    (hm : (n, f) ∈ l) : f.Uniq := by
  induction l with
  | nil => simp at hm
  | cons x l ih =>
    obtain ⟨k, g⟩ := x
    rcases List.mem_cons.1 hm with hm | hm
    · simp only [Prod.mk.injEq] at hm; rw [hm.2]; exact h.1
    · exact ih h.2 hm

theorem Flavor.Uniq.subs_map {f : Flavor} (h : f.Uniq) : UniqMap f.subs := by cases f; exact h

theorem UniqMap.mem_iff {m : FlavorMap} (h : UniqMap m) (n : String) (f : Flavor) :
    (n, f) ∈ m ↔ m.get? n = some f := AMap.mem_iff_get? m h.1 n f

theorem descend_iff {f : Flavor} (h : f.Uniq) (n : String) (path : List String) (g : Flavor) :
    f.descend (n :: path) = some g ↔ Reaches f.subs (n :: path) g := by
  induction path generalizing f n with
  | nil =>
    simp only [Flavor.descend, Option.bind_eq_some_iff, Option.some.injEq]
    constructor
    · rintro ⟨a, h1, rfl⟩; exact .top ((h.subs_map.mem_iff _ _).2 h1)
    · intro hr
      cases hr with
      | top hm => exact ⟨g, (h.subs_map.mem_iff _ _).1 hm, rfl⟩
      | sub hm h2 => cases h2
  | cons x path ih =>
    rw [Flavor.descend, Option.bind_eq_some_iff]
    constructor
    · rintro ⟨a, h1, h2⟩
      have hm := (h.subs_map.mem_iff _ _).2 h1
      exact .sub hm ((ih (uniq_mem h.subs_map.2 hm) x).1 h2)
    · intro hr
      cases hr with
      | sub hm h2 =>
        exact ⟨_, (h.subs_map.mem_iff _ _).1 hm, (ih (uniq_mem h.subs_map.2 hm) x).2 h2⟩

theorem inner_iff {m : FlavorMap} (h : UniqMap m) (path : List String) (g : Flavor) :
    getFlavorInner m path = some g ↔ Reaches m path g := by
  cases path with
  | nil => simp only [getFlavorInner, reduceCtorEq, false_iff]; intro hr; cases hr
  | cons n path =>
    simp only [getFlavorInner, Option.bind_eq_some_iff]
    constructor
    · rintro ⟨a, h1, h2⟩
      have hm := (h.mem_iff _ _).2 h1
      cases path with
      | nil => simp only [Flavor.descend, Option.some.injEq] at h2; subst h2; exact .top hm
      | cons x path => exact .sub hm ((descend_iff (uniq_mem h.2 hm) x path g).1 h2)
    · intro hr
      cases hr with
      | top hm => exact ⟨g, (h.mem_iff _ _).1 hm, rfl⟩
      | sub hm h2 =>
        refine ⟨_, (h.mem_iff _ _).1 hm, ?_⟩
        cases path with
        | nil => cases h2
        | cons x path => exact (descend_iff (uniq_mem h.2 hm) x path g).2 h2

mutual
theorem collectNames_mem (pre : List String) : ∀ (f : Flavor) (q : List String),
    q ∈ collectNames pre f ↔ ∃ path g, q = pre ++ path ∧ Reaches f.subs path g
  | .mk _ subs, q => by rw [collectNames, collectNamesList_mem pre subs q]; rfl
theorem collectNamesList_mem (pre : List String) : ∀ (l : List (String × Flavor)) (q : List String),
    q ∈ collectNamesList pre l ↔ ∃ path g, q = pre ++ path ∧ Reaches l path g
  | [], q => by
    simp only [collectNamesList, List.not_mem_nil, false_iff, not_exists, not_and]
    intro path g _ hr
    cases hr with
    | top hm => simp at hm
    | sub hm _ => simp at hm
  | (n, f) :: rest, q => by
    have h1 := collectNames_mem (pre ++ [n]) f q
    have h2 := collectNamesList_mem pre rest q
    simp only [collectNamesList, List.mem_append, List.mem_cons, h1, h2]
    constructor
    · rintro ((rfl | ⟨path, g, rfl, hr⟩) | ⟨path, g, rfl, hr⟩)
      · exact ⟨[n], f, rfl, .top (by simp)⟩
      · exact ⟨n :: path, g, by simp, .sub (List.mem_cons_self ..) hr⟩
      · refine ⟨path, g, rfl, ?_⟩
        cases hr with
        | top hm => exact .top (List.mem_cons_of_mem _ hm)
        | sub hm hr => exact .sub (List.mem_cons_of_mem _ hm) hr
    · rintro ⟨path, g, rfl, hr⟩
      cases hr with
      | top hm =>
        rcases List.mem_cons.1 hm with hm | hm
        · simp only [Prod.mk.injEq] at hm; rw [hm.1]; exact .inl (.inl rfl)
        · exact .inr ⟨_, g, rfl, .top hm⟩
      | sub hm hr =>
        rcases List.mem_cons.1 hm with hm | hm
        · simp only [Prod.mk.injEq] at hm
          obtain ⟨rfl, rfl⟩ := hm
          exact .inl (.inr ⟨_, g, by simp, hr⟩)
        · exact .inr ⟨_, g, rfl, .sub hm hr⟩
end

theorem reaches_ne {m : FlavorMap} {path : List String} {g : Flavor} (h : Reaches m path g) :
    path ≠ [] ∧ ∀ n, path.head? = some n → n ∈ AMap.keys m := by
  cases h with
  | top hm => exact ⟨by simp, by simp only [List.head?_cons, Option.some.injEq]; rintro _ rfl; exact List.mem_map_of_mem (f := Prod.fst) hm⟩
  | sub hm _ => exact ⟨by simp, by simp only [List.head?_cons, Option.some.injEq]; rintro _ rfl; exact List.mem_map_of_mem (f := Prod.fst) hm⟩

mutual
theorem collectNames_nodup (pre : List String) : ∀ (f : Flavor), f.Uniq → (collectNames pre f).Nodup
  | .mk _ subs, h => collectNamesList_nodup pre subs h.1 h.2
theorem collectNamesList_nodup (pre : List String) : ∀ (l : List (String × Flavor)),
    (AMap.keys l).Nodup → FlavorsUniq l → (collectNamesList pre l).Nodup
  | [], _, _ => by simp [collectNamesList]
  | (n, f) :: rest, hk, hu => by
    simp only [AMap.keys, List.map_cons, List.nodup_cons] at hk
    have h1 := collectNames_nodup (pre ++ [n]) f hu.1
    have h2 := collectNamesList_nodup pre rest hk.2 hu.2
    rw [collectNamesList, List.nodup_append]
    refine ⟨?_, h2, ?_⟩
    · rw [List.nodup_cons]
      refine ⟨?_, h1⟩
      rw [collectNames_mem]
      rintro ⟨path, g, he, hr⟩
      have : path = [] := by simpa using he
      exact (reaches_ne hr).1 this
    · intro a ha b hb hab
      subst hab
      rw [collectNamesList_mem] at hb
      obtain ⟨path, g, rfl, hr⟩ := hb
      have hh := reaches_ne hr
      apply hk.1
      apply hh.2
      rw [List.mem_cons, collectNames_mem] at ha
      rcases ha with ha | ⟨path', g', ha, -⟩
      · have : path = [n] := by simpa using ha
        rw [this]; rfl
      · rw [List.append_assoc] at ha
        have := List.append_cancel_left ha
        rw [this]; rfl
end

/-- C34.  Looking up a path gives the flavor that the path reaches, and fails exactly
when it reaches none. -/
theorem C34_lookup {m : FlavorMap} (h : UniqMap m) (path : List String) :
    (∀ f, getFlavor m path = .ok f ↔ Reaches m path f) ∧
    ((∃ names, getFlavor m path = .error names) ↔ ∀ f, ¬ Reaches m path f) := by
  have hi := inner_iff h path
  simp only [getFlavor]
  cases hg : getFlavorInner m path with
  | none =>
    rw [hg] at hi
    simp only [reduceCtorEq, false_iff] at hi
    simp [hi]
  | some g =>
    rw [hg] at hi
    simp only [Option.some.injEq] at hi
    simp only [Except.ok.injEq, reduceCtorEq, exists_false, false_iff, not_forall, not_not]
    exact ⟨hi, g, (hi g).1 rfl⟩

/-- C34.  The message of a failed lookup lists every existing flavor path, once, and
nothing else. -/
theorem C34_names {m : FlavorMap} {path : List String} {names : List (List String)}
    (h : UniqMap m) (he : getFlavor m path = .error names) :
    names.Nodup ∧ ∀ q, q ∈ names ↔ ∃ f, Reaches m q f := by
  simp only [getFlavor] at he
  split at he
  · simp at he
  · obtain rfl := Except.error.inj he
    refine ⟨collectNamesList_nodup [] m h.1 h.2, fun q => ?_⟩
    rw [allFlavorNames, collectNamesList_mem]
    simp

theorem uniqs_append (a b : List (String × Flavor)) :
    FlavorsUniq (a ++ b) ↔ FlavorsUniq a ∧ FlavorsUniq b := by
  induction a with
  | nil => simp [FlavorsUniq]
  | cons x a ih => obtain ⟨n, f⟩ := x; simp [FlavorsUniq, ih, and_assoc]

/-- The preset map has no name twice. -/
theorem uniq_presets (consume : Bool) (helpers : List TT) (ft : PresetFeatures) :
    UniqMap (presetFlavors consume helpers ft) := by
  obtain ⟨a, b, c, d⟩ := ft
  constructor
  · cases a <;> cases b <;> cases c <;> cases d <;> simp [presetFlavors, AMap.keys]
  · cases a <;> cases b <;> cases c <;> cases d <;>
      simp [presetFlavors, FlavorsUniq, Flavor.Uniq, levelFlavor, AMap.keys]

theorem uniqs_insert {m : FlavorMap} (h : UniqMap m) (n : String) {f : Flavor} (hf : f.Uniq) :
    UniqMap (AMap.insert m n f) := by
  refine ⟨AMap.insert_nodup m n f h.1, ?_⟩
  have := h.2
  clear h
  induction m with
  | nil => exact ⟨hf, trivial⟩
  | cons x m ih =>
    obtain ⟨k, g⟩ := x
    simp only [AMap.insert]
    split
    · exact ⟨hf, this.2⟩
    · exact ⟨this.1, ih this.2⟩

mutual
theorem applyTable_uniq {env : TomlEnv} : ∀ (t : Table) {f f' : Flavor}, f.Uniq →
    applyTable env f t = .ok f' → f'.Uniq
  | .mk fields subs, f, f', hf, h => by
    simp only [applyTable] at h
    obtain ⟨s, h1, h⟩ := except_bind_ok h
    obtain ⟨subs', h2, h⟩ := except_bind_ok h
    obtain rfl := Except.ok.inj h
    exact updateFlavors_uniq subs hf.subs_map (base := .mk s f.subs) hf.subs_map h2
theorem updateFlavors_uniq {env : TomlEnv} : ∀ (ts : List (String × Table)) {m m' : FlavorMap}
    {base : Flavor}, UniqMap m → base.Uniq → updateFlavors env m base ts = .ok m' → UniqMap m'
  | [], m, m', base, hm, hb, h => by
    simp only [updateFlavors, Except.ok.injEq] at h; subst h; exact hm
  | (name, t) :: rest, m, m', base, hm, hb, h => by
    simp only [updateFlavors] at h
    split at h
    · simp at h
    split at h
    · simp at h
    obtain ⟨f, h1, h2⟩ := except_bind_ok h
    have he : ((m.get? name).getD base).Uniq := by
      cases hg : m.get? name with
      | none => exact hb
      | some g => exact uniq_mem hm.2 ((hm.mem_iff _ _).2 hg)
    exact updateFlavors_uniq rest (uniqs_insert hm name (applyTable_uniq t he h1)) hb h2
end

/-- Every store that the code produces has no name twice. -/
theorem genuine_uniq {env : Env} (h : Genuine env) {m : FlavorMap} (hm : env.store = .ok m) :
    UniqMap m := by
  obtain ⟨helpers, ft, tenv, -, rfl | ⟨toml, ht⟩⟩ := h m hm
  · exact uniq_presets _ _ _
  · exact updateFlavors_uniq toml (uniq_presets _ _ _)
      (base := .mk _ []) (show (AMap.keys []).Nodup ∧ True from ⟨by simp [AMap.keys], trivial⟩) ht

/-- `log::warn` exists, `log::fatal` does not. -/
example : (∃ f, Reaches (presetFlavors false [] ⟨true, true, true, true⟩) ["log", "warn"] f) ∧
    ¬ (∃ f, Reaches (presetFlavors false [] ⟨true, true, true, true⟩) ["log", "fatal"] f) := by
  have h := uniq_presets false [] ⟨true, true, true, true⟩
  constructor
  · exact ⟨_, (inner_iff h _ _).1 rfl⟩
  · rintro ⟨f, hf⟩
    have := (inner_iff h _ _).2 hf
    revert this
    show ¬ (none = some f)
    simp

end Hooq
