import Verif.Spec.Mask

/-!
# Masking the project root (C98)
-/

namespace Hooq

section
variable {x y : List Char} (hx : x ≠ [])

theorem replaceFrom_hit (s : List Char) : replaceFrom x y hx (x ++ s) = y ++ replaceFrom x y hx s := by
  obtain ⟨c, x', rfl⟩ := List.exists_cons_of_ne_nil hx
  rw [List.cons_append, replaceFrom, if_pos (by simp [List.isPrefixOf_iff_prefix])]
  simp

theorem replaceFrom_skip {c : Char} {s : List Char} (h : ¬ x <+: c :: s) :
    replaceFrom x y hx (c :: s) = c :: replaceFrom x y hx s := by
  rw [replaceFrom, if_neg (by rwa [List.isPrefixOf_iff_prefix])]

/-- What the beginning of the result is: the text up to the first occurrence. -/
theorem replaceFrom_first (s : List Char) : (s ≠ [] → ¬ x <+: s → ∃ p, p ≠ [] ∧ p <+: s ∧
    (replaceFrom x y hx s = p ∨ ∃ s', replaceFrom x y hx s = p ++ (y ++ s'))) := by
  induction s with
  | nil => exact fun h => absurd rfl h
  | cons c s ih =>
    intro _ hc
    rw [replaceFrom_skip hx hc]
    by_cases hs : s = []
    · subst hs
      exact ⟨[c], by simp, by simp, .inl (by simp [replaceFrom])⟩
    · by_cases hp : x <+: s
      · obtain ⟨s', rfl⟩ := hp
        exact ⟨[c], by simp, by simp, .inr ⟨_, by rw [replaceFrom_hit]; rfl⟩⟩
      · obtain ⟨p, h1, h2, h3⟩ := ih hs hp
        refine ⟨c :: p, by simp, by simpa using h2, ?_⟩
        rcases h3 with h3 | ⟨s', h3⟩
        · exact .inl (by rw [h3])
        · exact .inr ⟨s', by rw [h3]; rfl⟩

include hx in
/-- Induction along the occurrences. -/
theorem occur_induct {motive : List Char → Prop} (nil : motive []) (hit : ∀ s, motive s → motive (x ++ s))
    (skip : ∀ c s, ¬ x <+: c :: s → motive s → motive (c :: s)) (s : List Char) : motive s := by
  induction hn : s.length using Nat.strong_induction_on generalizing s with
  | _ n ih =>
    cases s with
    | nil => exact nil
    | cons c s =>
      subst hn
      by_cases h : x <+: c :: s
      · obtain ⟨s', hs⟩ := h
        rw [← hs]
        refine hit s' (ih s'.length ?_ s' rfl)
        have := List.length_pos_iff.2 hx
        rw [← hs, List.length_append]
        omega
      · exact skip c s h (ih s.length (by simp) s rfl)

/-- A new text that does not overlap with itself and did not occur can be replaced back. -/
theorem replaceFrom_back (hy : y ≠ []) (hb : Unbordered y) {s : List Char} (hs : ¬ y <:+: s) :
    replaceFrom y x hy (replaceFrom x y hx s) = s := by
  induction s using occur_induct hx with
  | nil => simp [replaceFrom]
  | hit s ih =>
    rw [replaceFrom_hit, replaceFrom_hit, ih fun h => hs (h.trans (List.suffix_append _ _).isInfix)]
  | skip c s hc ih =>
    have hn : ¬ y <+: replaceFrom x y hx (c :: s) := by
      intro hp
      obtain ⟨p, h1, h2, h3⟩ := replaceFrom_first (y := y) hx (c :: s) (by simp) hc
      rcases h3 with h3 | ⟨s', h3⟩
      · rw [h3] at hp
        exact hs (hp.trans h2).isInfix
      · rw [h3] at hp
        rcases List.prefix_or_prefix_of_prefix hp (List.prefix_append p _) with h | ⟨z, hz⟩
        · exact hs (h.trans h2).isInfix
        · by_cases hz0 : z = []
          · rw [hz0, List.append_nil] at hz
            exact hs (hz ▸ h2.isInfix)
          · have h4 : z <+: y ++ s' := (List.prefix_append_right_inj p).1 (hz ▸ hp)
            have hl : p.length + z.length = y.length := by rw [← hz, List.length_append]
            have h5 : z <+: y := List.prefix_of_prefix_length_le h4 (List.prefix_append _ _) (by omega)
            have h6 := congrArg List.length (hb z hz0 h5 ⟨p, hz⟩)
            have := List.length_pos_iff.2 h1
            omega
    rw [replaceFrom_skip hx hc] at hn ⊢
    rw [replaceFrom_skip hy hn, ih fun h => hs (h.trans (List.suffix_cons _ _).isInfix)]

/-- If the old text begins with a character that the new one lacks, and the new one with one
that the old one lacks, then the old text is gone. -/
theorem replaceFrom_gone {a b : Char} {x' y' : List Char} (hxa : x = a :: x') (hyb : y = b :: y') (ha : a ∉ y) (hb : b ∉ x)
    (s : List Char) : ¬ x <:+: replaceFrom x y hx s := by
  induction s using occur_induct hx with
  | nil => simpa [replaceFrom] using hx
  | hit s ih =>
    rw [replaceFrom_hit]
    intro h
    obtain ⟨l, r, h⟩ := h
    rw [List.append_assoc] at h
    rcases List.append_eq_append_iff.1 h with ⟨z, h1, h2⟩ | ⟨z, h1, h2⟩
    · cases z with
      | nil => exact ih ⟨[], r, by simpa using h2⟩
      | cons c z =>
        have h3 : (x ++ r).head? = some c := by rw [h2]; rfl
        have h4 : (x ++ r).head? = some a := by subst hxa; rfl
        obtain rfl := Option.some.inj (h3.symm.trans h4)
        exact ha (by rw [h1]; simp)
    · exact ih ⟨z, r, by rw [h2, List.append_assoc]⟩
  | skip c s hc ih =>
    intro h
    rw [replaceFrom_skip hx hc, List.infix_cons_iff] at h
    rcases h with hp | h
    · rw [← replaceFrom_skip hx hc] at hp
      obtain ⟨p, h1, h2, h3⟩ := replaceFrom_first (y := y) hx (c :: s) (by simp) hc
      rcases h3 with h3 | ⟨s', h3⟩
      · rw [h3] at hp
        exact hc (hp.trans h2)
      · rw [h3] at hp
        rcases List.prefix_or_prefix_of_prefix hp (List.prefix_append p _) with h | ⟨z, hz⟩
        · exact hc (h.trans h2)
        · cases z with
          | nil => rw [List.append_nil] at hz; exact hc (hz ▸ h2)
          | cons d z =>
            have h4 : d :: z <+: y ++ s' := (List.prefix_append_right_inj p).1 (hz ▸ hp)
            rw [hyb, List.cons_append, List.cons_prefix_cons] at h4
            exact hb (by rw [← hz, h4.1]; simp)
    · exact ih h

end

/-! ## Files -/

/-- The text that a mode looks for. -/
def MaskMode.sought (root : List Char) (m : MaskMode) : List Char := m.other.written root

theorem process_eq (root c : List Char) (m : MaskMode) : m.process root c = replaceAll (m.sought root) (m.written root) c := by
  cases m <;> rfl

theorem maskText_ne : maskText ≠ [] := by decide

theorem written_ne {root : List Char} (hr : root ≠ []) (m : MaskMode) : m.written root ≠ [] := by
  cases m
  · exact maskText_ne
  · exact hr

theorem process_back {root c : List Char} (hr : root ≠ []) {m : MaskMode} (hb : Unbordered (m.written root))
    (hc : ¬ m.written root <:+: c) : m.other.process root (m.process root c) = c := by
  rw [process_eq, process_eq]
  have e : m.other.other = m := by cases m <;> rfl
  rw [MaskMode.sought, MaskMode.sought, e, replaceAll, dif_neg (written_ne hr _), replaceAll, dif_neg (written_ne hr _)]
  exact replaceFrom_back _ (written_ne hr m) hb hc

theorem mask_unbordered : Unbordered "<hooq_root>".toList := by
  have key : ∀ k ∈ List.range 12, 0 < k → maskText.take k = maskText.drop (11 - k) → k = 11 := by decide
  intro z hz hp hs
  have hl := hp.length_le
  have h1 := List.prefix_iff_eq_take.1 hp
  have h2 := List.suffix_iff_eq_drop.1 hs
  have h11 : ("<hooq_root>".toList).length = 11 := by decide
  rw [h11] at hl h2
  have := key z.length (List.mem_range.2 (by omega)) (List.length_pos_iff.2 hz) (h1.symm.trans h2)
  rw [h1, this]
  decide

theorem maskEntries_untouched (root : List Char) (m : MaskMode) (es : List (Option String)) (d : Disk) {p : String}
    (hp : some p ∉ es) : (maskEntries root m es d).1 p = d p := by
  induction es generalizing d with
  | nil => rfl
  | cons e es ih =>
    rw [List.mem_cons, not_or] at hp
    cases e with
    | none => exact ih d hp.2
    | some q =>
      rw [maskEntries]
      split
      · rfl
      · rw [ih _ hp.2, if_neg (fun h => hp.1 (by rw [h]))]

theorem maskEntries_done {root : List Char} {m : MaskMode} {es : List (Option String)} {d d' : Disk}
    (hn : (es.filterMap id).Nodup) (h : maskEntries root m es d = (d', true)) :
    ∀ p, some p ∈ es → ∃ c, d p = some c ∧ d' p = some (m.process root c) := by
  induction es generalizing d with
  | nil => simp
  | cons e es ih =>
    intro p hp
    cases e with
    | none => exact ih hn h p (by simpa using hp)
    | some q =>
      simp only [List.filterMap_cons, id, List.nodup_cons, List.mem_filterMap, exists_eq_right] at hn
      rw [maskEntries] at h
      split at h
      · cases h
      · rename_i c hc
        by_cases hpq : p = q
        · subst hpq
          refine ⟨c, hc, ?_⟩
          have := maskEntries_untouched root m es (fun q => if q = p then some (m.process root c) else d q) hn.1
          rw [h] at this
          simpa using this
        · obtain ⟨c', h1, h2⟩ := ih hn.2 h p (by simpa [hpq] using hp)
          exact ⟨c', by simpa [hpq] using h1, h2⟩

theorem maskEntries_runs {root : List Char} {m : MaskMode} {es : List (Option String)} {d : Disk}
    (h : ∀ p, some p ∈ es → d p ≠ none) : (maskEntries root m es d).2 = true := by
  induction es generalizing d with
  | nil => rfl
  | cons e es ih =>
    cases e with
    | none => exact ih fun p hp => h p (List.mem_cons_of_mem _ hp)
    | some q =>
      rw [maskEntries]
      split
      · rename_i hc
        exact absurd hc (h q List.mem_cons_self)
      · refine ih fun p hp => ?_
        by_cases hpq : p = q
        · simp [hpq]
        · simpa [hpq] using h p (List.mem_cons_of_mem _ hp)

theorem maskProjectRoot_ok {list : String → Option (List (Option String))} {root : Option (List Char)} {target : String}
    {m : MaskMode} {d d' : Disk} (h : maskProjectRoot list root target m d = (d', true)) :
    ∃ es r, list (target ++ "/*.expanded.rs") = some es ∧ root = some r ∧ maskEntries r m es d = (d', true) := by
  unfold maskProjectRoot at h
  split at h
  · exact ⟨_, _, by assumption, rfl, h⟩
  · cases h

/-- C98.  What a run writes into the recorded files, the opposite run takes out again, if it did
not occur there before and does not overlap with itself. -/
theorem C98_restored {list : String → Option (List (Option String))} {root : List Char} {target : String} {m : MaskMode}
    {d d' : Disk} (h : maskProjectRoot list (some root) target m d = (d', true)) (hr : root ≠ [])
    {es : List (Option String)} (hes : list (target ++ "/*.expanded.rs") = some es) (hn : (es.filterMap id).Nodup)
    (hb : Unbordered (m.written root)) (hc : ∀ p c, some p ∈ es → d p = some c → ¬ m.written root <:+: c) :
    maskProjectRoot list (some root) target m.other d' = (d, true) := by
  obtain ⟨es', r, h1, h2, h3⟩ := maskProjectRoot_ok h
  obtain rfl := Option.some.inj (hes.symm.trans h1)
  obtain rfl := Option.some.inj h2
  have hd := maskEntries_done hn h3
  have hrun : (maskEntries root m.other es d').2 = true := maskEntries_runs fun p hp => by
    obtain ⟨c, -, h⟩ := hd p hp
    simp [h]
  have hx : maskEntries root m.other es d' = ((maskEntries root m.other es d').1, true) := Prod.ext rfl hrun
  have : (maskEntries root m.other es d').1 = d := by
    funext p
    by_cases hp : some p ∈ es
    · obtain ⟨c, g1, g2⟩ := hd p hp
      obtain ⟨c', g3, g4⟩ := maskEntries_done hn hx p hp
      rw [g2] at g3
      obtain rfl := Option.some.inj g3
      rw [g4, g1, process_back hr hb (hc p c hp g1)]
    · rw [maskEntries_untouched _ _ _ _ hp]
      have := maskEntries_untouched root m es d hp
      rw [h3] at this
      exact this
  unfold maskProjectRoot
  rw [hes]
  show maskEntries root m.other es d' = _
  rw [hx, this]

/-- C98.  Masking can be undone in all files in which the mask does not occur. -/
theorem C98_mask_restored {list : String → Option (List (Option String))} {root : List Char} {target : String}
    {d d' : Disk} (h : maskProjectRoot list (some root) target .mask d = (d', true)) (hr : root ≠ [])
    {es : List (Option String)} (hes : list (target ++ "/*.expanded.rs") = some es) (hn : (es.filterMap id).Nodup)
    (hc : ∀ p c, some p ∈ es → d p = some c → ¬ "<hooq_root>".toList <:+: c) :
    maskProjectRoot list (some root) target .unMask d' = (d, true) :=
  C98_restored h hr hes hn mask_unbordered hc

/-- C98.  After masking no recorded file contains the directory of the package, if this is an
absolute path without `<`. -/
theorem C98_masked {list : String → Option (List (Option String))} {root : List Char} {target : String}
    {d d' : Disk} (h : maskProjectRoot list (some root) target .mask d = (d', true)) (hr : root.head? = some '/')
    (hlt : '<' ∉ root) {es : List (Option String)} (hes : list (target ++ "/*.expanded.rs") = some es)
    (hn : (es.filterMap id).Nodup) : ∀ p c, some p ∈ es → d' p = some c → ¬ root <:+: c := by
  obtain ⟨es', r, h1, h2, h3⟩ := maskProjectRoot_ok h
  obtain rfl := Option.some.inj (hes.symm.trans h1)
  obtain rfl := Option.some.inj h2
  intro p c hp hc
  obtain ⟨c0, -, g⟩ := maskEntries_done hn h3 p hp
  rw [g] at hc
  obtain rfl := Option.some.inj hc
  obtain ⟨x', hx'⟩ : ∃ x', root = '/' :: x' := by
    cases root with
    | nil => cases hr
    | cons a x' => exact ⟨x', by rw [List.head?_cons] at hr; rw [Option.some.inj hr]⟩
  have hne : root ≠ [] := by rw [hx']; simp
  rw [MaskMode.process, replaceAll, dif_neg hne]
  exact replaceFrom_gone hne hx' (y' := "hooq_root>".toList) (by decide) (by decide) hlt c0

/-- C98.  Other files stay as they are, whether the run reaches its end or not; in particular
all that are not directly in the directory. -/
theorem C98_untouched {list : String → Option (List (Option String))} {root : Option (List Char)} {target : String}
    {m : MaskMode} {d : Disk}
    (hl : ∀ es, list (target ++ "/*.expanded.rs") = some es → ∀ p, some p ∈ es → IsExpandedIn target p) {p : String}
    (hp : ¬ IsExpandedIn target p) : (maskProjectRoot list root target m d).1 p = d p := by
  unfold maskProjectRoot
  split
  · rename_i es r h1
    exact maskEntries_untouched _ _ _ _ fun h => hp (hl es h1 p h)
  · rfl

/-! ## Cases -/

/-- `src/main.expanded.rs`, which the tests of the book record, is not masked by
`mask_project_root(".", Mask)`, which they call. -/
theorem C98_book_tests : ¬ IsExpandedIn "." "./src/main.expanded.rs" := by
  rintro ⟨stem, h1, h2⟩
  have h3 := congrArg String.toList h2
  simp only [String.toList_append] at h3
  have h4 : "./src/main.expanded.rs".toList = "./".toList ++ ("src/main".toList ++ ".expanded.rs".toList) := by decide
  have h5 : ".".toList ++ "/".toList = "./".toList := by decide
  rw [h4, h5, List.append_assoc, List.append_cancel_left_eq, List.append_cancel_right_eq] at h3
  exact h1 (by rw [← h3]; decide)

/-- A directory that overlaps with itself: the recorded text comes back with the mask at another
place. -/
example : MaskMode.mask.process "/a/a".toList (MaskMode.unMask.process "/a/a".toList "/a<hooq_root>".toList) =
    "<hooq_root>/a".toList := by decide +kernel

/-- The hypotheses hold for an ordinary file. -/
example : ∃ d', maskProjectRoot (fun _ => some [some "t/a.expanded.rs", none]) (some "/w/hooq".toList) "t" .mask
      (fun p => if p = "t/a.expanded.rs" then some "f(\"/w/hooq/src\")".toList else none) = (d', true) ∧
    d' "t/a.expanded.rs" = some "f(\"<hooq_root>/src\")".toList ∧ Unbordered "/w/hooq".toList ∧
    ¬ "<hooq_root>".toList <:+: "f(\"/w/hooq/src\")".toList ∧ ¬ "/w/hooq".toList <:+: "f(\"<hooq_root>/src\")".toList := by
  refine ⟨_, rfl, by decide +kernel, ?_, by decide +kernel, by decide +kernel⟩
  have key : ∀ k ∈ List.range 8, 0 < k → "/w/hooq".toList.take k = "/w/hooq".toList.drop (7 - k) → k = 7 := by decide
  intro z hz hp hs
  have hl := hp.length_le
  have h1 := List.prefix_iff_eq_take.1 hp
  have h2 := List.suffix_iff_eq_drop.1 hs
  have h11 : ("/w/hooq".toList).length = 7 := by decide
  rw [h11] at hl h2
  have := key z.length (List.mem_range.2 (by omega)) (List.length_pos_iff.2 hz) (h1.symm.trans h2)
  rw [h1, this]
  decide

end Hooq
