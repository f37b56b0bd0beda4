import Verif.Proof.RootPlace
import Verif.Props.ErrPlace

/-!
# C91: where an error about the arguments of `#[hooq(..)]` is shown
-/

namespace Hooq

/-- C91.  An error about the arguments is shown where it belongs: in the text that is not
written as arguments should be, at the first argument that is not accepted, or, if the selected
flavor cannot be had, at the beginning of the arguments. -/
theorem C91_place {R : ArgReader} (hR : R.Sound) {env : Env} {ts : List TT} (hw : ∀ sp, ¬ Within (.ident "" sp) ts)
    {e : EntryErr} {p : ErrPlace} (h : rootPlaced R env ts = .error (e, p)) : RootShown R env ts e p := by
  unfold rootPlaced at h
  have hany := terminated_anyArgs hR _ (le_refl (openedAll ts).length)
  split at h
  · rename_i hm
    cases h
    refine .syntax (fun ha => ?_) (metas_fault hR _ le_rfl hm)
    obtain ⟨ms, h⟩ := hany.2 ha
    cases hm.symm.trans h
  · rename_i ms hm
    obtain ⟨h1, h2⟩ := rootLoop_spec hR (env := env) _ {} hm
    split at h
    · rename_i e' p' hl
      cases h
      obtain ⟨us, m, r, ra', hb, h3, h4, rfl⟩ := h2 _ _ hl
      refine .arg (hany.1 ⟨_, hm⟩) hb (fun a r' ha hr => ?_) (arg_shown hR (fun sp h => hw sp (behind_within hb h)) h3 h4)
      obtain ⟨m', h5, h6⟩ := argText_read hR.strings ha hr
      cases h3.symm.trans h5
      cases h4.symm.trans (h6 ra')
    · rename_i ra hl
      rw [hl] at h1
      obtain ⟨l, ht⟩ := text_of_terminated hR.strings _ _ _ _ _ hm h1.symm
      split at h
      · rename_i e' hr
        cases h
        refine .flavor ht (rootLoad_error hr) ?_
        cases ts with
        | nil => exact .empty
        | cons t r => exact .first t r
      · cases h

/-- C91, what is reported.  The errors with their places are those of the expansion: an error of
the arguments is what the expansion reports for every item that can be read, and if there is
none, the settings are those of the expansion. -/
theorem C91_agrees {R : ArgReader} (hR : R.Sound) {P : EntryParsers} (hP : P.metas = parseMetas R.value) {env : Env}
    {ts item : List TT} {i : Item} (hi : P.item item = some i) :
    (∀ e p, rootPlaced R env ts = .error (e, p) → hooqMacro P env ts item = .compileError e) ∧
    (∀ s, rootPlaced R env ts = .ok s → ∃ args, P.metas ts = some args ∧ rootSettings env args = .ok s) := by
  unfold rootPlaced hooqMacro
  rw [hi, hP]
  cases hm : parseMetas R.value ts with
  | none => exact ⟨fun e p h => by cases h; rfl, fun s h => by cases h⟩
  | some ms =>
    obtain ⟨h1, h2⟩ := rootLoop_spec hR (env := env) _ {} hm
    simp only
    cases hl : rootLoop R env {} (terminatedAt (metaOne R.value) (openedAll ts).length ts) with
    | error x =>
      obtain ⟨e', p'⟩ := x
      rw [hl] at h1
      obtain ⟨us, m, r, ra', -, -, h4, -⟩ := h2 _ _ hl
      refine ⟨fun e p h => ?_, fun s h => by cases h⟩
      cases h
      have hp : e' ≠ .panic := by
        rintro rfl
        cases m with
        | path p =>
          simp only [rootStep] at h4
          cases hf : flavorPathOfPath p <;> rw [hf] at h4 <;> cases h4
        | list p g =>
          simp only [rootStep] at h4
          split at h4
          · split at h4 <;> cases h4
          · cases h4
        | nv p v =>
          simp only [rootStep] at h4
          split at h4
          · rename_i s _
            split at h4
            · cases hf : flavorPathOfString s <;> rw [hf] at h4 <;> cases h4
            · cases h4
          · cases h4
      have : hooqImpls env ms i = .error e' := by
        simp only [hooqImpls, rootSettings, ← h1, Except.mapError, bind, Except.bind]
      rw [this]
      cases e' <;> first | rfl | exact absurd rfl hp
    | ok ra =>
      rw [hl] at h1
      simp only
      cases hr : rootLoad env ra with
      | error e' =>
        refine ⟨fun e p h => ?_, fun s h => by cases h⟩
        cases h
        have : hooqImpls env ms i = .error e' := by
          simp only [hooqImpls, rootSettings, ← h1, Except.mapError, bind, Except.bind, hr]
        rw [this]
        cases rootLoad_error hr <;> rfl
      | ok s =>
        refine ⟨fun e p h => by (cases h), fun s' h => ?_⟩
        cases h
        refine ⟨ms, rfl, ?_⟩
        simp only [rootSettings, ← h1, Except.mapError, bind, Except.bind, hr]

/-- C91, inside.  The place is a token of the arguments, or `#[hooq]` itself. -/
theorem C91_inside {R : ArgReader} (hR : R.Sound) {env : Env} {ts : List TT} (hw : ∀ sp, ¬ Within (.ident "" sp) ts)
    {e : EntryErr} {sp : Span} (h : rootPlaced R env ts = .error (e, .token sp)) : ∃ t, Within t ts ∧ sp = t.span := by
  generalize hp : ErrPlace.token sp = p at h
  cases C91_place hR hw h with
  | «syntax» _ hf => exact argsFault_within hR.value hf hp.symm
  | arg _ hb _ hs =>
    cases hs with
    | unknown h1 => cases hp; exact ⟨_, behind_within hb (within_begins h1), rfl⟩
    | string _ _ _ h1 h2 h3 =>
      cases hp
      exact ⟨_, behind_within hb (within_rest h1 (within_rest h2 (within_begins h3))), rfl⟩
    | uses sp1 sp2 _ h1 _ _ =>
      obtain ⟨t, h2, h3⟩ := hR.paths hp.symm
      exact ⟨t, behind_within hb (within_rest h1 (.group _ _ _ h2)), h3⟩
  | flavor _ _ hs =>
    cases hs with
    | empty => cases hp
    | first t r => cases hp; exact ⟨t, .here _, rfl⟩

/-- C91, flavors.  If the flavor does not exist or hooq.toml cannot be read, the place is the
beginning of the arguments, whichever of them names the flavor; without arguments it is `#[hooq]`. -/
theorem C91_flavor {R : ArgReader} (hR : R.Sound) {env : Env} {ts : List TT} (hw : ∀ sp, ¬ Within (.ident "" sp) ts)
    {e : Err} (ha : AboutFlavor e) {p : ErrPlace} (h : rootPlaced R env ts = .error (.expansion e, p)) :
    (ts = [] ∧ p = .root) ∨ ∃ t r, ts = t :: r ∧ p = .token t.span := by
  cases C91_place hR hw h with
  | arg _ _ _ hs => cases ha <;> cases hs
  | flavor _ _ hs =>
    cases hs with
    | empty => exact .inl ⟨rfl, rfl⟩
    | first t r => exact .inr ⟨t, r, rfl, rfl⟩

/-- C91, order.  An error in the way the arguments are written comes before all others, and
there is one exactly if the text is not written as arguments. -/
theorem C91_syntax {R : ArgReader} (hR : R.Sound) {env : Env} {ts : List TT} :
    (∃ p, rootPlaced R env ts = .error (.argSyntax, p)) ↔ ¬ AnyArgs R.value ts := by
  rw [← terminated_anyArgs hR _ (le_refl (openedAll ts).length)]
  constructor
  · rintro ⟨p, h⟩ ⟨ms, hm⟩
    rw [rootPlaced, parseMetas, hm] at h
    simp only at h
    split at h
    · cases h
    · split at h <;> cases h
  · intro h
    refine ⟨metasPlace R.toErrReader ts, ?_⟩
    have : parseMetas R.value ts = none := by
      cases hm : parseMetas R.value ts with
      | none => rfl
      | some ms => exact absurd ⟨ms, hm⟩ h
    rw [rootPlaced, this]

/-! ## Examples -/

open Ex

/-- A reader of literals and of no paths. -/
def Ex.argReader : ArgReader := { placeReader with pathsFault := cursorPlace }

theorem Ex.argReader_sound : argReader.Sound where
  strings := readValue_strings
  value := placeReader_sound
  shrinks := by
    intro r v r' h
    change readValue r = _ at h
    unfold readValue at h
    split at h
    · cases h; simp [openedAll]
    · cases h; simp [openedAll]
    · split at h
      · cases h; simp [openedAll]
      · cases h
  paths := by
    intro g sp h
    cases g with
    | nil => cases h
    | cons t g => cases h; exact ⟨t, .here _, rfl⟩

theorem Ex.within_cons {t u : TT} {ts : List TT} (h : Within t (u :: ts)) :
    t = u ∨ Within t ts ∨ ∃ d g sp, u = .group d g sp ∧ Within t g := by
  cases h with
  | here => exact .inl rfl
  | later _ h => exact .inr (.inl h)
  | group d sp _ h => exact .inr (.inr ⟨_, _, _, rfl, h⟩)

/-- `trait_use(), nosuch`. -/
def Ex.lateFlavor : List TT :=
  [.ident "trait_use" (at2 2), .group .paren [] (at2 11), .punct ',' (at2 13), .ident "nosuch" (at2 15)]

theorem Ex.lateFlavor_words (sp : Span) : ¬ Within (.ident "" sp) lateFlavor := by
  intro h
  rcases within_cons h with h | h | ⟨_, _, _, h, -⟩
  · simp at h
  · rcases within_cons h with h | h | ⟨_, _, _, h, h'⟩
    · cases h
    · rcases within_cons h with h | h | ⟨_, _, _, h, -⟩
      · cases h
      · rcases within_cons h with h | h | ⟨_, _, _, h, -⟩
        · simp at h
        · cases h
        · cases h
      · cases h
    · cases h; cases h'
  · cases h

/-- The flavor is named by the second argument, the error is shown at the first one. -/
example : ∃ l, rootPlaced argReader pathsEnv lateFlavor = .error (.expansion (.flavorNotFound ["nosuch"] l), .token (at2 2)) ∧
    RootShown argReader pathsEnv lateFlavor (.expansion (.flavorNotFound ["nosuch"] l)) (.token (at2 2)) :=
  ⟨_, rfl, C91_place argReader_sound lateFlavor_words rfl⟩

/-- `log, other(x)`: the error is shown at the argument. -/
example : ∃ l, rootPlaced argReader pathsEnv
    [.ident "log" (at2 2), .punct ',' (at2 5), .ident "other" (at2 7), .group .paren [tkId "x"] (at2 12)] =
      .error (.expansion (.rootArg l), .token (at2 7)) :=
  ⟨_, rfl⟩

/-- `flavor = ""`: the error is shown at the string. -/
example : ∃ e, rootPlaced argReader pathsEnv [.ident "flavor" (at2 2), .punct '=' (at2 9), .lit (.str "") (at2 11)] =
    .error (.expansion (.flavorPath e), .token (at2 11)) :=
  ⟨_, rfl⟩

/-- `other(x), log log`: what is shown is the error of the second argument. -/
example : rootPlaced argReader pathsEnv
    [.ident "other" (at2 2), .group .paren [tkId "x"] (at2 7), .punct ',' (at2 10), .ident "log" (at2 12),
      .ident "log" (at2 16)] = .error (.argSyntax, .token (at2 16)) :=
  rfl

/-- `log::`: the error is shown at `#[hooq]`. -/
example : rootPlaced argReader pathsEnv [.ident "log" (at2 2), .punct ':' (at2 5), .punct ':' (at2 6)] = .error (.argSyntax, .root) :=
  rfl

end Hooq
