import Verif.Model.Metas
import Verif.Props.Entry
import Verif.Props.FlavorSpelling
import Verif.Spec.Metas
import Verif.Proof.Unwrap

/-!
# How the arguments of `#[hooq(..)]` may be written (C78)
-/

namespace Hooq

/-- What an argument does to what has been read. -/
def RootArg.on (r : RootAttr) : RootArg → RootAttr
  | .flavor n => { r with flavor := some n }
  | .uses ps => { r with traitUses := r.traitUses ++ ps }

theorem isModSegment_iff {x : String} : x ≠ "" ∧ isModSegment x = true ↔ PathWord x := by
  refine and_congr_right fun _ => ?_
  have h1 : ∀ x ∈ keywords, x ∈ otherKeywords ∨ x ∈ ["super", "self", "Self", "crate"] := by decide +kernel
  have h2 : ∀ x ∈ otherKeywords, x ∈ keywords ∧ x ∉ ["super", "self", "Self", "crate"] := by decide +kernel
  have h3 : isModSegment x = true ↔ x ∉ keywords ∨ x ∈ ["super", "self", "Self", "crate"] := by
    simp only [isModSegment, Bool.or_eq_true, Bool.not_eq_true', List.contains_eq_mem, decide_eq_false_iff_not,
      beq_iff_eq, List.mem_cons, List.not_mem_nil, or_false, or_assoc]
  rw [h3]
  constructor
  · rintro (h | h) hx
    · exact h (h2 x hx).1
    · exact (h2 x hx).2 h
  · intro h
    by_cases hk : x ∈ keywords
    · exact .inr ((h1 x hk).resolve_left h)
    · exact .inl hk

theorem begins_iff {t : TT} {r ts : List TT} : Begins t r ts ↔ enteredAll ts = some (t :: r) := enters_iff _ _

theorem blank_iff {ts : List TT} : Blank ts ↔ (enteredAll ts).isNone = true := by
  simp only [Blank, enters_iff]
  cases enteredAll ts <;> simp

theorem colons_iff {r ts : List TT} : ColonsText r ts ↔ colons ts = some r := by
  simp only [ColonsText, begins_iff]
  constructor
  · rintro ⟨sp1, sp2, r', h1, h2⟩
    simp [colons, h1, h2]
  · intro h
    unfold colons at h
    split at h
    · rename_i h1
      split at h
      · rename_i h2
        obtain rfl := Option.some.inj h
        exact ⟨_, _, _, h1, h2⟩
      · cases h
    · cases h

theorem colons_shorter {r ts : List TT} (h : colons ts = some r) : (openedAll r).length < (openedAll ts).length := by
  obtain ⟨sp1, sp2, r', h1, h2⟩ := colons_iff.2 h
  exact Nat.lt_trans (enters_shorter h2) (enters_shorter h1)

theorem modLoop_ok : ∀ (n : Nat) {ts : List TT} {l : List String} {r : List TT}, modLoop n ts = some (l, r) →
    (∀ x ∈ l, x ≠ "") → WordsText l r ts := by
  intro n
  induction n with
  | zero => intro ts l r h; cases h
  | succ n ih =>
    intro ts l r h hl
    rw [modLoop] at h
    split at h
    · rename_i x sp r1 h1
      split at h
      · rename_i hx
        split at h
        · rename_i r2 h2
          obtain ⟨⟨l', r''⟩, h3, h4⟩ := Option.map_eq_some_iff.1 h
          obtain ⟨rfl, rfl⟩ := Prod.mk.inj h4
          exact .cons sp (isModSegment_iff.1 ⟨hl x (by simp), hx⟩) (begins_iff.2 h1) (colons_iff.2 h2)
            (ih h3 fun y hy => hl y (by simp [hy]))
        · obtain ⟨rfl, rfl⟩ := Prod.mk.inj (Option.some.inj h)
          exact .one sp (isModSegment_iff.1 ⟨hl x (by simp), hx⟩) (begins_iff.2 h1)
      · cases h
    · cases h

/-- What stands behind an argument. -/
def ArgEnds (r : List TT) : Prop := r = [] ∨ ∃ sp r', Begins (.punct ',' sp) r' r

theorem ArgEnds.noColons {r : List TT} (h : ArgEnds r) : colons r = none := by
  rcases h with rfl | ⟨sp, r', h⟩
  · simp [colons, enteredAll]
  · simp [colons, begins_iff.1 h]

theorem modLoop_words {l : List String} {r ts : List TT} (h : WordsText l r ts) (hr : colons r = none) :
    ∀ n, (openedAll ts).length ≤ n → modLoop n ts = some (l, r) := by
  induction h with
  | one sp hx h1 =>
    intro n hn
    have := enters_shorter h1
    obtain ⟨n, rfl⟩ : ∃ m, n = m + 1 := ⟨n - 1, by omega⟩
    simp [modLoop, begins_iff.1 h1, (isModSegment_iff.2 hx).2, hr]
  | cons sp hx h1 h2 _ ih =>
    intro n hn
    have h3 := enters_shorter h1
    have h4 := colons_shorter (colons_iff.1 h2)
    obtain ⟨n, rfl⟩ : ∃ m, n = m + 1 := ⟨n - 1, by omega⟩
    simp [modLoop, begins_iff.1 h1, (isModSegment_iff.2 hx).2, colons_iff.1 h2, ih hr n (by omega)]

theorem modSegments_words {l : List String} {r ts : List TT} (h : WordsText l r ts) (hr : colons r = none) :
    modSegments ts = some (l, r) := modLoop_words h hr _ le_rfl

theorem words_head {l : List String} {r ts : List TT} (h : WordsText l r ts) :
    ∃ x sp r', enteredAll ts = some (.ident x sp :: r') ∧ PathWord x ∧ x ≠ "unsafe" := by
  have : ∀ {x : String}, PathWord x → x ≠ "unsafe" := by
    rintro x hx rfl
    exact hx.2 (by decide)
  cases h with
  | one sp hx h1 => exact ⟨_, _, _, begins_iff.1 h1, hx, this hx⟩
  | cons sp hx h1 _ => exact ⟨_, _, _, begins_iff.1 h1, hx, this hx⟩

/-- A path that does not begin with `unsafe`. -/
theorem metaPath_other {ts : List TT} {x : String} {sp : Span} {r' : List TT}
    (h : enteredAll ts = some (.ident x sp :: r')) (hx : x ≠ "unsafe") :
    metaPath ts = (modSegments ts).map fun p => (.ofIdents p.1, p.2) := by
  unfold metaPath
  rw [h]
  split
  · rename_i h1
    simp only [Option.some.injEq, List.cons.injEq, TT.ident.injEq] at h1
    exact absurd h1.1.1 hx
  · simp [colons, h]

theorem metaPath_colons {ts r : List TT} (h : colons ts = some r) :
    metaPath ts = (modSegments r).map fun p => ({ Path.ofIdents p.1 with leading := true }, p.2) := by
  obtain ⟨sp1, sp2, r', h1, h2⟩ := colons_iff.2 h
  simp [metaPath, begins_iff.1 h1, h]

theorem metaPath_words {l : List String} {r ts : List TT} (h : WordsText l r ts) (hr : colons r = none) :
    metaPath ts = some (.ofIdents l, r) := by
  obtain ⟨x, sp, w', h1, -, hx⟩ := words_head h
  rw [metaPath_other h1 hx, modSegments_words h hr]
  rfl

theorem metaPath_rooted {l : List String} {r r' ts : List TT} (h' : ColonsText r' ts) (h : WordsText l r r')
    (hr : colons r = none) : metaPath ts = some ({ Path.ofIdents l with leading := true }, r) := by
  rw [metaPath_colons (colons_iff.1 h'), modSegments_words h hr]
  rfl

theorem rootStep_words {l : List String} {rest ts : List TT} (h : WordsText l rest ts) (env : Env) (b : Bool) (r : RootAttr) :
    rootStep env r (.path { Path.ofIdents l with leading := b }) = .ok { r with flavor := some l } := by
  have h1 : ∀ x ∈ l, x ≠ "" := by
    induction h with
    | one sp hx _ => simpa using hx.1
    | cons sp hx _ _ _ ih => simpa using ⟨hx.1, ih⟩
  have h2 : l ≠ [] := by cases h <;> simp
  have h3 : flavorPathOfPath { Path.ofIdents l with leading := b } = .ok l := by
    rw [flavorPathOfPath_ok]
    simpa [Path.ofIdents, Function.comp_def] using h1
  simp [rootStep, h3, Except.mapError, bind, Except.bind, h2]

theorem metaOne_path {value : List TT → Option (Value × List TT)} {ts r : List TT} {p : Path}
    (h : metaPath ts = some (p, r)) (hr : ArgEnds r) : metaOne value ts = some (.path p, r) := by
  rcases hr with rfl | ⟨sp, r', hr⟩
  · simp [metaOne, h, enteredAll]
  · simp [metaOne, h, begins_iff.1 hr]

theorem group_plain {d : Delim} (hd : d ≠ .none) (g : List TT) (sp : Span) (r : List TT) :
    enteredAll (.group d g sp :: r) = some (.group d g sp :: r) := by
  cases d <;> simp [enteredAll, TT.entered] at hd ⊢

theorem metaOne_list {value : List TT → Option (Value × List TT)} {ts g r : List TT} {p : Path} {d : Delim} {sp : Span}
    (h : metaPath ts = some (p, .group d g sp :: r)) (hd : d ≠ .none) : metaOne value ts = some (.list p g, r) := by
  simp only [metaOne, h, group_plain hd]

theorem metaOne_nv {value : List TT → Option (Value × List TT)} {ts r r' : List TT} {p : Path} {sp : Span}
    (h : metaPath ts = some (p, r)) (hr : enteredAll r = some (.punct '=' sp :: r')) :
    metaOne value ts = (value r').map fun v => (.nv p v.1, v.2) := by
  simp only [metaOne, h, hr]

/-- What `metaOne` reads. -/
theorem metaOne_cases {value : List TT → Option (Value × List TT)} {ts r : List TT} {m : Meta}
    (h : metaOne value ts = some (m, r)) :
    (∃ p, m = .path p ∧ metaPath ts = some (p, r)) ∨
    (∃ p d g sp, m = .list p g ∧ d ≠ .none ∧ metaPath ts = some (p, .group d g sp :: r)) ∨
    ∃ p v r1 sp r2, m = .nv p v ∧ metaPath ts = some (p, r1) ∧ enteredAll r1 = some (.punct '=' sp :: r2) ∧
      value r2 = some (v, r) := by
  unfold metaOne at h
  split at h
  · cases h
  · rename_i p r1 hp
    split at h
    · split at h
      · cases h
      · rename_i hd _
        obtain ⟨rfl, rfl⟩ := Prod.mk.inj (Option.some.inj h)
        exact .inr (.inl ⟨_, _, _, _, rfl, fun h => hd h, hp⟩)
      · cases h
    · rename_i hr
      obtain ⟨⟨v, r⟩, h1, h2⟩ := Option.map_eq_some_iff.1 h
      simp only [Prod.mk.injEq] at h2
      obtain ⟨rfl, rfl⟩ := h2
      exact .inr (.inr ⟨_, _, _, _, _, rfl, hp, hr, h1⟩)
    · obtain ⟨rfl, rfl⟩ := Prod.mk.inj (Option.some.inj h)
      exact .inl ⟨_, rfl, hp⟩

/-- A text of an argument is read as an argument that says the same. -/
theorem argText_read {value : List TT → Option (Value × List TT)} (hv : ReadsStrings value) {env : Env}
    {a : RootArg} {r ts : List TT} (h : ArgText env a r ts) (hr : ArgEnds r) :
    ∃ m, metaOne value ts = some (m, r) ∧ ∀ ra, rootStep env ra m = .ok (a.on ra) := by
  cases h with
  | path hw => exact ⟨_, metaOne_path (metaPath_words hw hr.noColons) hr, fun ra => rootStep_words hw env false ra⟩
  | rooted hc hw =>
    exact ⟨_, metaOne_path (metaPath_rooted hc hw hr.noColons) hr, fun ra => rootStep_words hw env true ra⟩
  | unsafe_ sp h =>
    exact ⟨_, metaOne_path (p := .ofIdents ["unsafe"]) (by simp [metaPath, begins_iff.1 h]) hr, fun ra => rfl⟩
  | @uses x d g _ _ l sp1 sp2 hx h hd hp =>
    have hw : WordsText [x] (.group d g sp2 :: r) ts :=
      .one sp1 (by rcases hx with rfl | rfl <;> exact ⟨by decide, by decide⟩) h
    have hm := metaPath_words hw (by simp [colons, group_plain hd])
    refine ⟨.list (.ofIdents [x]) g, metaOne_list hm hd, fun ra => ?_⟩
    rcases hx with rfl | rfl <;> simp [rootStep, Path.isIdent, hp, RootArg.on]
  | @named s l _ r1 r2 _ sp1 sp2 h1 h2 h3 hs =>
    have hw : WordsText ["flavor"] r1 ts := .one sp1 ⟨by decide, by decide⟩ h1
    have hm := metaPath_words hw (by simp [colons, begins_iff.1 h2])
    obtain ⟨v, h4, h5⟩ := hv.reads h3 hr
    refine ⟨.nv (.ofIdents ["flavor"]) v, ?_, fun ra => ?_⟩
    · rw [metaOne_nv hm (begins_iff.1 h2), h4]; rfl
    · simp [rootStep, h5, Path.isIdent, (C65_string s l).2 hs, Except.mapError, bind, Except.bind, RootArg.on]

theorem metaPath_ok {ts : List TT} {p : Path} {r : List TT} (h : metaPath ts = some (p, r))
    (hp : ∀ g ∈ p.segs, g.ident ≠ "") :
    (p = .ofIdents ["unsafe"] ∧ ∃ sp, Begins (.ident "unsafe" sp) r ts) ∨
      ∃ l, (p = .ofIdents l ∧ WordsText l r ts) ∨
        (p = { Path.ofIdents l with leading := true } ∧ ∃ r', ColonsText r' ts ∧ WordsText l r r') := by
  have hseg : ∀ {l : List String} {b : Bool}, p = { Path.ofIdents l with leading := b } → ∀ x ∈ l, x ≠ "" := by
    rintro l b rfl x hx
    exact hp ⟨x, false⟩ (by simpa [Path.ofIdents] using hx)
  unfold metaPath at h
  split at h
  · rename_i h1
    obtain ⟨rfl, rfl⟩ := Prod.mk.inj (Option.some.inj h)
    exact .inl ⟨rfl, _, begins_iff.2 h1⟩
  · split at h
    · rename_i h3
      obtain ⟨⟨l, r'⟩, h1, h2⟩ := Option.map_eq_some_iff.1 h
      simp only [Prod.mk.injEq] at h2
      obtain ⟨h2, rfl⟩ := h2
      exact .inr ⟨l, .inr ⟨h2.symm, _, colons_iff.2 h3, modLoop_ok _ h1 (hseg h2.symm)⟩⟩
    · obtain ⟨⟨l, r'⟩, h1, h2⟩ := Option.map_eq_some_iff.1 h
      simp only [Prod.mk.injEq] at h2
      obtain ⟨h2, rfl⟩ := h2
      exact .inr ⟨l, .inl ⟨h2.symm, modLoop_ok _ h1 (hseg (b := false) h2.symm)⟩⟩

theorem metaPath_ident {ts : List TT} {x : String} {r : List TT} (h : metaPath ts = some (.ofIdents [x], r))
    (hx : x ≠ "") : ∃ sp, Begins (.ident x sp) r ts := by
  obtain ⟨h1, sp, h2⟩ | ⟨l, ⟨h1, h2⟩ | ⟨h1, -⟩⟩ := metaPath_ok h (by simpa [Path.ofIdents] using hx)
  · obtain rfl : x = "unsafe" := by simpa [Path.ofIdents] using h1
    exact ⟨sp, h2⟩
  · obtain rfl : [x] = l := by
      have := congrArg (fun p : Path => p.segs.map (·.ident)) h1
      simpa [Path.ofIdents, Function.comp_def] using this
    cases h2 with
    | one sp _ h => exact ⟨sp, h⟩
    | cons _ _ _ _ h3 => exact absurd h3 (by intro h; cases h)
  · have := congrArg Path.leading h1
    simp [Path.ofIdents] at this

/-- An argument that is read and accepted is a text of an argument that says the same. -/
theorem argText_of_read {value : List TT → Option (Value × List TT)} (hv : ReadsStrings value) {env : Env}
    {ts r : List TT} {m : Meta} (h : metaOne value ts = some (m, r)) {ra ra' : RootAttr}
    (hs : rootStep env ra m = .ok ra') : ∃ a, ArgText env a r ts ∧ ra' = a.on ra := by
  rcases metaOne_cases h with ⟨p, rfl, hp⟩ | ⟨p, d, g, sp, rfl, hd, hp⟩ | ⟨p, v, r1, sp, r2, rfl, hp, h1, h2⟩
  · have hok := (rootStep_ok_iff env ra (.path p)).1 ⟨_, hs⟩
    obtain ⟨rfl, sp, h1⟩ | ⟨l, ⟨rfl, hw⟩ | ⟨rfl, r', hc, hw⟩⟩ := metaPath_ok hp fun g hg => (hok g hg).2
    · exact ⟨_, .unsafe_ sp h1, (Except.ok.inj hs).symm⟩
    · exact ⟨_, .path hw, (Except.ok.inj ((rootStep_words hw env false ra).symm.trans hs)).symm⟩
    · exact ⟨_, .rooted hc hw, (Except.ok.inj ((rootStep_words hw env true ra).symm.trans hs)).symm⟩
  · simp only [rootStep] at hs
    split at hs
    · rename_i hx
      obtain ⟨x, hx', rfl⟩ : ∃ x, (x = "trait_use" ∨ x = "trait_uses") ∧ p = .ofIdents [x] := by
        simp only [Path.isIdent, Bool.or_eq_true, beq_iff_eq] at hx
        rcases hx with h | h
        · exact ⟨_, .inl rfl, h⟩
        · exact ⟨_, .inr rfl, h⟩
      split at hs
      · rename_i l hl
        obtain ⟨sp1, h1⟩ := metaPath_ident hp (by rcases hx' with rfl | rfl <;> simp)
        exact ⟨_, .uses sp1 sp hx' h1 hd hl, (Except.ok.inj hs).symm⟩
      · cases hs
    · cases hs
  · simp only [rootStep] at hs
    split at hs
    · rename_i s hs'
      split at hs
      · rename_i hx
        obtain rfl : p = .ofIdents ["flavor"] := by simpa [Path.isIdent] using hx
        obtain ⟨l, h3, h4⟩ := except_bind_ok hs
        rw [mapError_ok] at h3
        obtain ⟨sp1, h5⟩ := metaPath_ident hp (by simp)
        exact ⟨_, .named sp1 sp h5 (begins_iff.2 h1) (hv.literal h2 hs') ((C65_string s l).1 h3),
          (Except.ok.inj h4).symm⟩
      · cases hs
    · cases hs

theorem words_shorter {l : List String} {r ts : List TT} (h : WordsText l r ts) :
    (openedAll r).length < (openedAll ts).length := by
  induction h with
  | one _ _ h => exact enters_shorter h
  | cons _ _ h1 h2 _ ih => exact ih.trans ((colons_shorter (colons_iff.1 h2)).trans (enters_shorter h1))

theorem argText_shorter {env : Env} {a : RootArg} {r ts : List TT} (h : ArgText env a r ts) :
    (openedAll r).length < (openedAll ts).length := by
  cases h with
  | path hw => exact words_shorter hw
  | rooted hc hw => exact (words_shorter hw).trans (colons_shorter (colons_iff.1 hc))
  | unsafe_ _ h => exact enters_shorter h
  | uses _ _ _ h =>
    refine Nat.lt_of_le_of_lt ?_ (enters_shorter h)
    simp [openedAll]
  | named _ _ h1 h2 h3 =>
    have := (enters_shorter h2).trans (enters_shorter h1)
    obtain ⟨sp, rfl | ⟨rfl, -⟩⟩ := h3
    · refine Nat.lt_of_le_of_lt ?_ this
      simp [openedAll]
    · exact Nat.lt_of_le_of_lt (by simp [openedAll]) this

theorem terminated_text {value : List TT → Option (Value × List TT)} (hv : ReadsStrings value) {env : Env}
    {l : List RootArg} {ts : List TT} (h : ArgsText env l ts) : ∀ n, (openedAll ts).length ≤ n → ∀ ra,
    ∃ ms, terminated (metaOne value) n ts = some ms ∧
      parseRoot env ra ms = .ok { traitUses := ra.traitUses ++ argsUses l, flavor := (argsFlavor l).or ra.flavor } := by
  have hcons : ∀ (a : RootArg) (l : List RootArg) (ra : RootAttr),
      ({ traitUses := (a.on ra).traitUses ++ argsUses l, flavor := (argsFlavor l).or (a.on ra).flavor } : RootAttr) =
      { traitUses := ra.traitUses ++ argsUses (a :: l), flavor := (argsFlavor (a :: l)).or ra.flavor } := by
    intro a l ra
    cases a <;> simp [RootArg.on, argsUses, argsFlavor]
  have hne : ∀ {a r ts}, ArgText env a r ts → ∃ t ts', ts = t :: ts' := by
    intro a r ts h
    have := argText_shorter h
    cases ts with
    | nil => simp [openedAll] at this
    | cons t ts => exact ⟨_, _, rfl⟩
  induction h with
  | nil => intro n _ ra; exact ⟨[], by cases n <;> rfl, by simp [parseRoot, argsUses, argsFlavor]⟩
  | @one a ts ha =>
    intro n hn ra
    obtain ⟨m, hm, hs⟩ := argText_read hv ha (.inl rfl)
    have hlt := argText_shorter ha
    obtain ⟨t, ts, rfl⟩ := hne ha
    obtain ⟨n, rfl⟩ : ∃ m, n = m + 1 := ⟨n - 1, by omega⟩
    refine ⟨[m], by simp [terminated, hm], ?_⟩
    rw [← hcons a [] ra]
    simp [parseRoot, hs, bind, Except.bind, argsUses, argsFlavor]
  | @cons a l r r' ts sp ha hc _ ih =>
    intro n hn ra
    obtain ⟨m, hm, hs⟩ := argText_read hv ha (.inr ⟨_, _, hc⟩)
    have hlt := argText_shorter ha
    have hlt' := enters_shorter hc
    obtain ⟨t, ts, rfl⟩ := hne ha
    obtain ⟨n, rfl⟩ : ∃ m, n = m + 1 := ⟨n - 1, by omega⟩
    obtain ⟨ms, h1, h2⟩ := ih n (by omega) (a.on ra)
    refine ⟨m :: ms, ?_, ?_⟩
    · have hr : r ≠ [] := by
        rintro rfl
        simp [openedAll] at hlt'
      rw [terminated, hm]
      · simp [begins_iff.1 hc, h1]
      · simp
    · rw [← hcons a l ra, ← h2]
      simp [parseRoot, hs, bind, Except.bind]

theorem text_of_terminated {value : List TT → Option (Value × List TT)} (hv : ReadsStrings value) {env : Env} :
    ∀ (n : Nat) (ts : List TT) (ms : List Meta) (ra ra' : RootAttr),
      terminated (metaOne value) n ts = some ms → parseRoot env ra ms = .ok ra' →
      ∃ l, ArgsText env l ts := by
  intro n
  induction n with
  | zero =>
    intro ts ms ra ra' h _
    cases ts with
    | nil => exact ⟨[], .nil⟩
    | cons => cases h
  | succ n ih =>
    intro ts ms ra ra' h hp
    cases ts with
    | nil => exact ⟨[], .nil⟩
    | cons t ts =>
      rw [terminated] at h
      split at h
      · cases h
      · rename_i m h1
        obtain rfl := Option.some.inj h
        simp only [parseRoot] at hp
        obtain ⟨r1, h2, -⟩ := except_bind_ok hp
        obtain ⟨a, ha, -⟩ := argText_of_read hv h1 h2
        exact ⟨[a], .one ha⟩
      · rename_i m r _ h1
        split at h
        · rename_i sp r' hc
          obtain ⟨ms', h3, rfl⟩ := Option.map_eq_some_iff.1 h
          simp only [parseRoot] at hp
          obtain ⟨r1, h2, h4⟩ := except_bind_ok hp
          obtain ⟨a, ha, -⟩ := argText_of_read hv h1 h2
          obtain ⟨l, hl⟩ := ih _ ms' _ _ h3 h4
          exact ⟨a :: l, .cons sp ha (begins_iff.2 hc) hl⟩
        · cases h
      · simp

/-! ## C78 -/

/-- C78.  The arguments are accepted exactly if they are written as arguments with commas
between them; they then say what the single arguments say, the last flavor being the one that
counts. -/
theorem C78_accepted {value : List TT → Option (Value × List TT)} (hv : ReadsStrings value) (env : Env)
    (ts : List TT) (r : RootAttr) :
    readRoot value env ts = .ok r ↔
      ∃ l, ArgsText env l ts ∧ r.flavor = argsFlavor l ∧ r.traitUses = argsUses l := by
  have hread : ∀ {l}, ArgsText env l ts → readRoot value env ts = .ok ⟨argsUses l, argsFlavor l⟩ := by
    intro l h
    obtain ⟨ms, h1, h2⟩ := terminated_text hv h _ le_rfl {}
    simp only [readRoot, parseMetas, h1, h2, Except.mapError, List.nil_append, Option.or_none]
  constructor
  · intro h
    have h' := h
    simp only [readRoot] at h
    split at h
    · cases h
    · rename_i ms hm
      rw [mapError_ok] at h
      obtain ⟨l, hl⟩ := text_of_terminated hv _ _ _ _ _ hm h
      have := Except.ok.inj (h'.symm.trans (hread hl))
      exact ⟨l, hl, by rw [this], by rw [this]⟩
  · rintro ⟨l, hl, h1, h2⟩
    rw [hread hl, ← h1, ← h2]

/-- C78, no two readings.  A text does not say two different things. -/
theorem C78_unique {value : List TT → Option (Value × List TT)} (hv : ReadsStrings value) {env : Env}
    {ts : List TT} {l l' : List RootArg} (h : ArgsText env l ts) (h' : ArgsText env l' ts) :
    argsFlavor l = argsFlavor l' ∧ argsUses l = argsUses l' := by
  have e := (C78_accepted hv env ts ⟨argsUses l, argsFlavor l⟩).2 ⟨l, h, rfl, rfl⟩
  obtain e' := e.symm.trans ((C78_accepted hv env ts ⟨argsUses l', argsFlavor l'⟩).2 ⟨l', h', rfl, rfl⟩)
  simp only [Except.ok.injEq, RootAttr.mk.injEq] at e'
  exact ⟨e'.2, e'.1⟩

/-- C78, whole macro.  There is an expansion exactly if the item is one, the arguments are
written as arguments, the flavor they name (`default` if none) exists, and the item can be
processed with its settings; the `use` lines are those of the arguments, then those of the
flavor. -/
theorem C78_expansion {value : List TT → Option (Value × List TT)} (hv : ReadsStrings value) {env : Env}
    {m : FlavorMap} (hm : env.store = .ok m) (hu : UniqMap m) {P : EntryParsers}
    (hP : P.metas = parseMetas value) (attr item : List TT) (uses : List Path) (o : Item) :
    hooqMacro P env attr item = .code uses o ↔
      ∃ i l f c, P.item item = some i ∧ ArgsText env l attr ∧ Reaches m ((argsFlavor l).getD ["default"]) f ∧
        uses = argsUses l ++ f.settings.traitUses ∧
        walkItem env (Ctx.new { f.settings with traitUses := uses }) i {} = .ok (o, c) := by
  have hd : flavorPathOfString "default" = .ok ["default"] := rfl
  have hload : ∀ r : RootAttr, ∀ s, rootLoad env r = .ok s ↔ ∃ f, Reaches m (r.flavor.getD ["default"]) f ∧
      s = { f.settings with traitUses := r.traitUses ++ f.settings.traitUses } := by
    intro r s
    have hl : ∀ p t, lookupFlavor env p = .ok t ↔ ∃ f, Reaches m p f ∧ t = f.settings := by
      intro p t
      simp only [lookupFlavor, hm]
      cases hg : getFlavor m p with
      | ok f =>
        have hf := ((C34_lookup hu p).1 f).1 hg
        simp only [Except.ok.injEq]
        constructor
        · rintro rfl; exact ⟨f, hf, rfl⟩
        · rintro ⟨f', hf', rfl⟩
          have := hg.symm.trans (((C34_lookup hu p).1 f').2 hf')
          rw [Except.ok.inj this]
      | error e =>
        simp only [reduceCtorEq, false_iff]
        rintro ⟨f, hf, -⟩
        have := hg.symm.trans (((C34_lookup hu p).1 f).2 hf)
        cases this
    simp only [rootLoad, hd, Except.mapError, bind, Except.bind]
    cases hl' : lookupFlavor env (r.flavor.getD ["default"]) with
    | ok t =>
      obtain ⟨f, hf, rfl⟩ := (hl _ _).1 hl'
      simp only [Except.ok.injEq]
      constructor
      · rintro rfl; exact ⟨f, hf, rfl⟩
      · rintro ⟨f', hf', rfl⟩
        have := hl'.symm.trans ((hl _ _).2 ⟨f', hf', rfl⟩)
        rw [Except.ok.inj this]
    | error e =>
      simp only [reduceCtorEq, false_iff]
      rintro ⟨f, hf, -⟩
      have := hl'.symm.trans ((hl _ _).2 ⟨f, hf, rfl⟩)
      cases this
  rw [C74_code]
  constructor
  · rintro ⟨i, args, hi, ha, ho⟩
    simp only [hooqImpls, rootSettings] at ho
    obtain ⟨s, h1, ho⟩ := except_bind_ok ho
    obtain ⟨r, h2, h3⟩ := except_bind_ok h1
    obtain ⟨⟨o', c⟩, h4, ho⟩ := except_bind_ok ho
    obtain ⟨rfl, rfl⟩ := Prod.mk.inj (Except.ok.inj ho)
    obtain ⟨f, hf, rfl⟩ := (hload r s).1 h3
    have hr : readRoot value env attr = .ok r := by
      simp only [readRoot, ← hP, ha, h2, Except.mapError]
    obtain ⟨l, hl, e1, e2⟩ := (C78_accepted hv env attr r).1 hr
    rw [e1] at hf
    rw [e2] at h4 ⊢
    exact ⟨i, l, f, c, hi, hl, hf, rfl, h4⟩
  · rintro ⟨i, l, f, c, hi, hl, hf, rfl, h4⟩
    have hr := (C78_accepted hv env attr ⟨argsUses l, argsFlavor l⟩).2 ⟨l, hl, rfl, rfl⟩
    simp only [readRoot, ← hP] at hr
    split at hr
    · cases hr
    · rename_i args ha
      rw [mapError_ok] at hr
      have hs := (hload ⟨argsUses l, argsFlavor l⟩ _).2 ⟨f, hf, rfl⟩
      refine ⟨i, args, hi, ha, ?_⟩
      simp only [hooqImpls, rootSettings, hr, hs, h4, bind, Except.bind]

theorem words_ok {l : List String} {r ts : List TT} (h : WordsText l r ts) : ∀ x ∈ l, PathWord x := by
  induction h with
  | one sp hx _ => simpa using hx
  | cons sp hx _ _ _ ih => simpa using ⟨hx, ih⟩

/-- C78, keywords.  A flavor with a keyword in its path (other than `unsafe` alone) can only be
given as `flavor = ".."`. -/
theorem C78_keyword {env : Env} {names : List String} {r ts : List TT} (h : ArgText env (.flavor names) r ts)
    {x : String} (hx : x ∈ names) (hk : x ∈ otherKeywords) (hn : names ≠ ["unsafe"]) :
    ∃ sp1 sp2 r1 r2 s, Begins (.ident "flavor" sp1) r1 ts ∧ Begins (.punct '=' sp2) r2 r1 ∧ StringText s r r2 := by
  cases h with
  | path hw => exact absurd hk (words_ok hw x hx).2
  | rooted _ hw => exact absurd hk (words_ok hw x hx).2
  | unsafe_ => exact absurd rfl hn
  | named sp1 sp2 h1 h2 h3 _ => exact ⟨_, _, _, _, _, h1, h2, h3⟩

/-! ## Examples -/

open Ex

/-- A reader of values: a literal, which may be in a group without delimiters if it is all. -/
def Ex.readValue (ts : List TT) : Option (Value × List TT) :=
  match ts with
  | .lit (.str s) _ :: r => some ({ view := .litStr s, text := s }, r)
  | .lit l _ :: r => some ({ view := .other, text := toString (repr l) }, r)
  | _ =>
    match enteredAll ts with
    | some [.lit (.str s) _] => some ({ view := .litStr s, text := s }, [])
    | _ => none

theorem Ex.readValue_strings : ReadsStrings readValue where
  literal := by
    intro ts v r s h hv
    unfold readValue at h
    split at h
    · obtain ⟨rfl, rfl⟩ := Prod.mk.inj (Option.some.inj h); cases hv; exact ⟨_, .inl rfl⟩
    · obtain ⟨rfl, rfl⟩ := Prod.mk.inj (Option.some.inj h); cases hv
    · split at h
      · rename_i he
        obtain ⟨rfl, rfl⟩ := Prod.mk.inj (Option.some.inj h); cases hv
        exact ⟨_, .inr ⟨rfl, begins_iff.2 he⟩⟩
      · cases h
  reads := by
    rintro s r ts ⟨sp, rfl | ⟨rfl, h⟩⟩ -
    · exact ⟨_, rfl, rfl⟩
    · have he := begins_iff.1 h
      unfold readValue
      split
      · simp [enteredAll, TT.entered] at he
        obtain ⟨⟨rfl, -⟩, rfl⟩ := he
        exact ⟨_, rfl, rfl⟩
      · rename_i hn
        simp [enteredAll, TT.entered] at he
        obtain ⟨⟨rfl, -⟩, -⟩ := he
        exact absurd rfl (hn _)
      · simp [he]

/-- `trait_use(), log::debug, flavor = "anyhow",`. -/
def Ex.someArgs : List TT :=
  [tkId "trait_use", .group .paren [] .callSite, tkP ',', tkId "log", tkP ':', tkP ':', tkId "debug", tkP ',',
    tkId "flavor", tkP '=', tkStr "anyhow", tkP ',']

/-- An environment that reads an empty list of paths. -/
def Ex.pathsEnv : Env := { env with parsePaths := fun ts => if ts.isEmpty then some [] else none }

example : ArgsText pathsEnv [.uses [], .flavor ["log", "debug"], .flavor ["anyhow"]] someArgs ∧
    ∃ r, readRoot readValue pathsEnv someArgs = .ok r ∧ r.flavor = some ["anyhow"] := by
  have w : ∀ x, x ∈ ["log", "debug"] → PathWord x := by unfold PathWord; decide +kernel
  have hl : SpelledAs "anyhow".toList (["anyhow"].map String.toList) := (C65_string "anyhow" ["anyhow"]).1 rfl
  have h : ArgsText pathsEnv [.uses [], .flavor ["log", "debug"], .flavor ["anyhow"]] someArgs :=
    .cons .callSite (.uses .callSite .callSite (.inl rfl) (begins_iff.2 rfl) (d := .paren) (by decide) rfl)
      (begins_iff.2 rfl)
      (.cons .callSite (.path (.cons .callSite (w "log" (by simp)) (begins_iff.2 rfl) (colons_iff.2 rfl)
          (.one .callSite (w "debug" (by simp)) (begins_iff.2 rfl)))) (begins_iff.2 rfl)
        (.cons .callSite (.named .callSite .callSite (begins_iff.2 rfl) (begins_iff.2 rfl) ⟨_, .inl rfl⟩ hl)
          (begins_iff.2 rfl) .nil))
  exact ⟨h, _, (C78_accepted readValue_strings pathsEnv someArgs ⟨_, _⟩).2 ⟨_, h, rfl, rfl⟩, rfl⟩

/-- A flavor called `try` cannot be given as a path, but as a string. -/
example : readRoot readValue pathsEnv [tkId "try"] = .error .argSyntax ∧
    ArgText pathsEnv (.flavor ["try"]) [] [tkId "flavor", tkP '=', tkStr "try"] :=
  ⟨rfl, .named _ _ (begins_iff.2 rfl) (begins_iff.2 rfl) ⟨_, .inl rfl⟩ ((C65_string "try" ["try"]).1 rfl)⟩

/-- `trait_use [..]` and `::log` are accepted as well. -/
example : ArgText pathsEnv (.uses []) [] [tkId "trait_uses", .group .bracket [] .callSite] ∧
    ArgText pathsEnv (.flavor ["log"]) [] [tkP ':', tkP ':', tkId "log"] :=
  ⟨.uses _ _ (.inr rfl) (begins_iff.2 rfl) (by decide) rfl,
    .rooted (colons_iff.2 rfl) (.one _ ⟨by decide, by decide⟩ (begins_iff.2 rfl))⟩

/-- A group without delimiters. -/
def Ex.bare (ts : List TT) : TT := .group .none ts .callSite

/-- Another macro may give the path, and the string if it is the last thing. -/
example : ArgsText pathsEnv [.flavor ["log", "debug"], .flavor ["anyhow"]]
      [bare [tkId "log", tkP ':', tkP ':', tkId "debug"], tkP ',', tkId "flavor", tkP '=', bare [tkStr "anyhow"]] ∧
    readRoot readValue pathsEnv [tkId "flavor", tkP '=', bare [tkStr "anyhow"], tkP ','] = .error .argSyntax ∧
    readRoot readValue pathsEnv [bare [tkId "log"], bare []] = .error .argSyntax := by
  have w : ∀ x, x ∈ ["log", "debug"] → PathWord x := by unfold PathWord; decide +kernel
  refine ⟨.cons .callSite (.path (.cons .callSite (w "log" (by simp)) (begins_iff.2 rfl) (colons_iff.2 rfl)
      (.one .callSite (w "debug" (by simp)) (begins_iff.2 rfl)))) (begins_iff.2 rfl)
    (.one (.named .callSite .callSite (begins_iff.2 rfl) (begins_iff.2 rfl)
      ⟨.callSite, .inr ⟨rfl, begins_iff.2 rfl⟩⟩ ((C65_string "anyhow" ["anyhow"]).1 rfl))), rfl, rfl⟩

end Hooq
