import Verif.Spec.RootPlace
import Verif.Proof.ErrPlace
import Verif.Props.Metas

/-!
# Where an error about the arguments of `#[hooq(..)]` is shown
-/

namespace Hooq

/-- Some name is at the beginning. -/
abbrev HasName (ts : List TT) : Prop := ∃ r, WholeName r ts

theorem wholeName_iff {r ts : List TT} : WholeName r ts ↔ ∃ p, metaPath ts = some (p, r) := by
  constructor
  · rintro ⟨h1, h2⟩
    cases hc : colons r with
    | none => exact name_metaPath h1 hc
    | some q =>
      obtain ⟨sp, h3⟩ := h2 q (colons_iff.2 hc)
      exact ⟨_, unsafe_metaPath h3⟩
  · rintro ⟨p, h⟩
    refine ⟨metaPath_nameText h, fun q hq => ?_⟩
    rcases metaPath_name h with h | ⟨-, h⟩
    · exact h
    · rw [colons_iff.1 hq] at h
      cases h

theorem noColons_nil (q : List TT) : ¬ ColonsText q [] := by
  rintro ⟨sp1, sp2, r', h, -⟩
  cases h

theorem names_viable {us : List TT}
    (h : ∀ q, Names q (.ident "x" .callSite :: q) → BoundName q (us ++ .ident "x" .callSite :: q)) :
    ∃ more, HasName (us ++ more) :=
  ⟨[.ident "x" .callSite], [], h [] (.one .callSite plain_x (begins_self (by simp) _)),
    fun q hq => absurd hq (noColons_nil q)⟩

theorem not_named {ts : List TT} (h : metaPath ts = none) : ¬ HasName ts := by
  rintro ⟨r, hr⟩
  obtain ⟨p, hp⟩ := wholeName_iff.1 hr
  rw [h] at hp
  cases hp

/-- Where no name can be read. -/
theorem path_place {ts : List TT} (hp : metaPath ts = none) : NameFault HasName ts (cursorPlace (pathRest ts)) := by
  unfold pathRest
  split
  · rename_i c hc
    have hc' := colons_iff.2 hc
    have hl : modSegments c = none := by
      rw [metaPath_colons hc] at hp
      exact Option.map_eq_none_iff.1 hp
    obtain ⟨us0, hp0, hq0⟩ := passes_colons hc'
    obtain ⟨h1, h2⟩ := modRest_names _ le_rfl hl
    generalize modRest (openedAll c).length c = r at h1 h2
    rcases h1 with rfl | ⟨r1, h1, h3⟩
    · refine .place (faultAt_cursor hp0 (names_viable fun q hn => .inr (.inr ⟨_, hq0 _, hn⟩)) ?_)
      intro b r' hb more
      refine not_named (metaPath_rooted_stuck (hq0 _) (modLoop_other (modSegments_plain (enters_plain hb) ?_ more) _))
      rintro x sp hx rfl
      exact h2 x sp r' hx hb
    · obtain ⟨us1, hp1, hq1⟩ := passes_names h1
      obtain ⟨us2, hp2, hq2⟩ := passes_colons h3
      refine .place (faultAt_cursor (passes_append hp0 (passes_append hp1 hp2)) (names_viable ?_) ?_)
      · intro q hn
        rw [List.append_assoc, List.append_assoc]
        refine .inr (.inr ⟨_, hq0 _, ?_⟩)
        exact names_more (hq1 _) (hq2 _) hn
      · intro b r' hb more
        rw [List.append_assoc, List.append_assoc]
        refine not_named (metaPath_rooted_stuck (hq0 _)
          (names_stuck (hq1 _) (hq2 _) (modSegments_plain (enters_plain hb) ?_ more) _ le_rfl).1)
        rintro x sp hx rfl
        exact h2 x sp r' hx hb
  · rename_i hc
    have hu : ∀ sp r, ¬ Begins (.ident "unsafe" sp) r ts := by
      intro sp r hb
      rw [unsafe_metaPath hb] at hp
      cases hp
    have hl : modSegments ts = none := by
      rw [metaPath_other' hu hc] at hp
      exact Option.map_eq_none_iff.1 hp
    obtain ⟨h1, h2⟩ := modRest_names _ le_rfl hl
    generalize modRest (openedAll ts).length ts = r at h1 h2
    rcases h1 with rfl | ⟨r1, h1, h3⟩
    · have hv := names_viable (us := []) fun q hn => .inr (.inl hn)
      by_cases hcol : ∃ sp r', Begins (.punct ':' sp) r' r
      · obtain ⟨sp, r', hb⟩ := hcol
        cases r with
        | nil => cases hb
        | cons t r =>
          refine .colon sp (.stop _) hv hb fun sp' r'' hb' => ?_
          rw [colons_iff.1 ⟨sp, sp', r', hb, hb'⟩] at hc
          cases hc
      · refine .place (faultAt_cursor (.stop _) hv ?_)
        intro b r' hb more
        have ha : ∀ sp r, ¬ Begins (.ident "unsafe" sp) r (b :: more) := by
          intro sp r'' hb'
          obtain ⟨hbs, -⟩ := begins_unique hb' (begins_self (enters_plain hb) more)
          exact hu sp r' (hbs ▸ hb)
        have hd := colons_plain (enters_plain hb) (fun sp hbs => hcol ⟨sp, r', hbs ▸ hb⟩) more
        have hx := modSegments_plain (enters_plain hb) (fun x sp hx hbx => h2 x sp r' hx (hbx ▸ hb)) more
        refine not_named ?_
        rw [List.nil_append, metaPath_other' ha hd, modSegments, modLoop_other hx]
        rfl
    · obtain ⟨us1, hp1, hq1⟩ := passes_names h1
      obtain ⟨us2, hp2, hq2⟩ := passes_colons h3
      refine .place (faultAt_cursor (passes_append hp1 hp2) (names_viable ?_) ?_)
      · intro q hn
        rw [List.append_assoc]
        exact .inr (.inl (names_more (hq1 _) (hq2 _) hn))
      · intro b r' hb more
        rw [List.append_assoc]
        refine not_named (metaPath_stuck (hq1 _) (hq2 _) (modSegments_plain (enters_plain hb) ?_ more))
        intro x sp hx hbx
        exact h2 x sp r' hx (hbx ▸ hb)

theorem anyArg_of_meta {value : List TT → Option (Value × List TT)} {ts r : List TT} {m : Meta}
    (h : metaOne value ts = some (m, r)) : AnyArg value r ts := by
  unfold metaOne at h
  split at h
  · cases h
  · rename_i p r1 hp
    have hn := wholeName_iff.2 ⟨p, hp⟩
    split at h
    · split at h
      · cases h
      · rename_i hd _
        obtain ⟨rfl, rfl⟩ := Prod.mk.inj (Option.some.inj h)
        exact .list _ hn fun h => hd h
      · cases h
    · rename_i hr
      obtain ⟨⟨v, r⟩, h1, h2⟩ := Option.map_eq_some_iff.1 h
      simp only [Prod.mk.injEq] at h2
      obtain ⟨rfl, rfl⟩ := h2
      exact .value _ hn (begins_iff.2 hr) h1
    · rename_i h1 h2
      obtain ⟨rfl, rfl⟩ := Prod.mk.inj (Option.some.inj h)
      exact .name hn (fun r' sp hb => h2 _ _ (begins_iff.1 hb)) fun d g sp r' hb => h1 _ _ _ _ (begins_iff.1 hb)

/-- Where no argument can be read. -/
theorem meta_place {R : ErrReader} {ts : List TT} (h : metaOne R.value ts = none) : ArgsFault R ts (metaPlace R ts) := by
  unfold metaOne at h
  unfold metaPlace
  split at h
  · rename_i hp
    rw [hp]
    exact .name (path_place hp)
  · rename_i p r hp
    have hn := wholeName_iff.2 ⟨p, hp⟩
    rw [hp]
    simp only
    split at h
    · rename_i d g sp r' he
      rw [he]
      split at h
      · exact .wrapped _ _ hn (begins_iff.2 he)
      · cases h
      · rename_i h1 h2
        exfalso
        cases r with
        | nil => simp [enteredAll] at he
        | cons t r =>
          cases t with
          | group d' g' sp' => cases d' <;> first | exact h1 _ _ _ rfl | exact h2 _ _ _ _ rfl
          | _ => simp [enteredAll, TT.entered] at he
    · rename_i sp r' he
      rw [he]
      exact .value sp hn (begins_iff.2 he) (Option.map_eq_none_iff.1 h)
    · cases h

theorem metaPath_shorter {ts r : List TT} {p : Path} (h : metaPath ts = some (p, r)) :
    (openedAll r).length < (openedAll ts).length := by
  have names : ∀ {r ts : List TT}, Names r ts → (openedAll r).length < (openedAll ts).length := by
    intro r ts h
    induction h with
    | one _ _ h => exact enters_shorter h
    | more _ _ h1 h2 _ ih => exact ih.trans ((colons_shorter (colons_iff.1 h2)).trans (enters_shorter h1))
  rcases metaPath_nameText h with ⟨sp, h⟩ | h | ⟨ts', hc, h⟩
  · exact enters_shorter h
  · exact names h
  · exact (names h).trans (colons_shorter (colons_iff.1 hc))

theorem metaOne_path_some {value : List TT → Option (Value × List TT)} {ts r : List TT} {m : Meta}
    (h : metaOne value ts = some (m, r)) : ∃ p r', metaPath ts = some (p, r') := by
  rcases metaOne_cases h with ⟨p, -, h⟩ | ⟨p, _, _, _, -, -, h⟩ | ⟨p, _, _, _, _, -, h, -⟩ <;> exact ⟨p, _, h⟩

theorem metaOne_shorter {R : ArgReader} (hR : R.Sound) {ts r : List TT} {m : Meta}
    (h : metaOne R.value ts = some (m, r)) : (openedAll r).length < (openedAll ts).length := by
  rcases metaOne_cases h with ⟨p, -, h⟩ | ⟨p, d, g, sp, -, -, h⟩ | ⟨p, v, r1, sp, r2, -, h, h1, h2⟩
  · exact metaPath_shorter h
  · refine Nat.lt_of_le_of_lt ?_ (metaPath_shorter h)
    simp [openedAll]
  · have := hR.shrinks h2
    have := enters_shorter (begins_iff.2 h1)
    have := metaPath_shorter h
    omega

theorem metaOne_nil (value : List TT → Option (Value × List TT)) : metaOne value [] = none := by
  cases h : metaOne value [] with
  | none => rfl
  | some x =>
    obtain ⟨p, r, h⟩ := metaOne_path_some h
    have := metaPath_shorter h
    simp [openedAll] at this

/-- Where the arguments cannot be read. -/
theorem metas_fault {R : ArgReader} (hR : R.Sound) : ∀ (n : Nat) {ts : List TT}, (openedAll ts).length ≤ n →
    terminated (metaOne R.value) n ts = none → ArgsFault R.toErrReader ts (metasPlaceFuel R.toErrReader n ts) := by
  intro n
  induction n with
  | zero =>
    intro ts hn h
    refine meta_place ?_
    cases hm : metaOne R.value ts with
    | none => rfl
    | some x =>
      have := metaOne_shorter hR hm
      omega
  | succ n ih =>
    intro ts hn h
    cases ts with
    | nil => cases h
    | cons t ts =>
      rw [metasPlaceFuel]
      cases hm : metaOne R.value (t :: ts) with
      | none => exact meta_place hm
      | some x =>
        obtain ⟨m, r⟩ := x
        have hlt := metaOne_shorter hR hm
        have ha := anyArg_of_meta hm
        cases r with
        | nil =>
          rw [terminated, hm] at h
          · cases h
          · simp
        | cons u r =>
          rw [terminated, hm] at h
          · simp only at h ⊢
            split at h
            · rename_i sp r' hc
              have hlt' := enters_shorter (begins_iff.2 hc)
              rw [hc]
              exact .later sp ha (begins_iff.2 hc) (ih (by omega) (Option.map_eq_none_iff.1 h))
            · rename_i hno
              split
              · rename_i sp r' hc
                exact absurd hc (hno _ _)
              · exact .behind ha fun sp r' hb => hno _ _ (begins_iff.1 hb)
          · simp

theorem modLoop_within : ∀ (n : Nat) {ts r : List TT} {l : List String}, modLoop n ts = some (l, r) →
    ∀ x ∈ l, ∃ sp, Within (.ident x sp) ts := by
  intro n
  induction n with
  | zero => intro ts r l h; cases h
  | succ n ih =>
    intro ts r l h y hy
    rw [modLoop] at h
    split at h
    · rename_i x sp r' h1
      split at h
      · split at h
        · rename_i r'' h2
          obtain ⟨⟨l', r3⟩, h3, h4⟩ := Option.map_eq_some_iff.1 h
          obtain ⟨rfl, rfl⟩ := Prod.mk.inj h4
          rcases List.mem_cons.1 hy with rfl | hy
          · exact ⟨sp, within_begins (begins_iff.2 h1)⟩
          · obtain ⟨sp', hw⟩ := ih h3 y hy
            exact ⟨sp', within_rest (begins_iff.2 h1) (within_colons (colons_iff.2 h2) hw)⟩
        · obtain ⟨rfl, rfl⟩ := Prod.mk.inj (Option.some.inj h)
          obtain rfl := List.mem_singleton.1 hy
          exact ⟨sp, within_begins (begins_iff.2 h1)⟩
      · cases h
    · cases h

/-- The words of a path stand in the text, and there are no generic arguments. -/
theorem metaPath_segs {ts r : List TT} {p : Path} (h : metaPath ts = some (p, r)) :
    ∀ g ∈ p.segs, g.hasArgs = false ∧ ∃ sp, Within (.ident g.ident sp) ts := by
  unfold metaPath at h
  split at h
  · rename_i h1
    obtain ⟨rfl, rfl⟩ := Prod.mk.inj (Option.some.inj h)
    intro g hg
    obtain rfl := List.mem_singleton.1 hg
    exact ⟨rfl, _, within_begins (begins_iff.2 h1)⟩
  · split at h
    · rename_i h3
      obtain ⟨⟨l, r'⟩, h1, h2⟩ := Option.map_eq_some_iff.1 h
      simp only [Prod.mk.injEq] at h2
      obtain ⟨rfl, rfl⟩ := h2
      intro g hg
      obtain ⟨x, hx, rfl⟩ := List.mem_map.1 hg
      obtain ⟨sp, hw⟩ := modLoop_within _ h1 x hx
      exact ⟨rfl, sp, within_colons (colons_iff.2 h3) hw⟩
    · obtain ⟨⟨l, r'⟩, h1, h2⟩ := Option.map_eq_some_iff.1 h
      simp only [Prod.mk.injEq] at h2
      obtain ⟨rfl, rfl⟩ := h2
      intro g hg
      obtain ⟨x, hx, rfl⟩ := List.mem_map.1 hg
      obtain ⟨sp, hw⟩ := modLoop_within _ h1 x hx
      exact ⟨rfl, sp, hw⟩

theorem metaPath_begins {ts r : List TT} {p : Path} (h : metaPath ts = some (p, r)) : ∃ t r', Begins t r' ts := by
  rcases metaPath_nameText h with ⟨sp, h⟩ | h | ⟨ts', ⟨_, _, _, hc, _⟩, -⟩
  · exact ⟨_, _, h⟩
  · obtain ⟨x, sp, r', -, h⟩ := names_head h
    exact ⟨_, _, h⟩
  · exact ⟨_, _, hc⟩

/-- The error about one argument. -/
theorem arg_shown {R : ArgReader} (hR : R.Sound) {env : Env} {ts r : List TT} {m : Meta}
    (hw : ∀ sp, ¬ Within (.ident "" sp) ts) (h : metaOne R.value ts = some (m, r)) {ra : RootAttr} {e : Err}
    (he : rootStep env ra m = .error e) : ArgShown R env ts e (argPlace R ts m e) := by
  have unk : ∀ l, ArgShown R env ts (.rootArg l) (leftPlace ts) := by
    intro l
    obtain ⟨p, r', hp⟩ := metaOne_path_some h
    obtain ⟨t, r', hb⟩ := metaPath_begins hp
    rw [leftPlace_begins hb]
    exact .unknown hb
  rcases metaOne_cases h with ⟨p, rfl, hp⟩ | ⟨p, d, g, sp, rfl, hd, hp⟩ | ⟨p, v, r1, sp, r2, rfl, hp, h1, h2⟩
  · exfalso
    have hok : ∃ r', rootStep env ra (.path p) = .ok r' := by
      rw [rootStep_ok_iff]
      intro g hg
      obtain ⟨h1, sp, h2⟩ := metaPath_segs hp g hg
      exact ⟨h1, fun h0 => hw sp (h0 ▸ h2)⟩
    obtain ⟨r', hok⟩ := hok
    rw [hok] at he
    cases he
  · simp only [rootStep] at he
    split at he
    · rename_i hx
      obtain ⟨x, hx', rfl⟩ : ∃ x, (x = "trait_use" ∨ x = "trait_uses") ∧ p = .ofIdents [x] := by
        simp only [Path.isIdent, Bool.or_eq_true, beq_iff_eq] at hx
        rcases hx with h | h
        · exact ⟨_, .inl rfl, h⟩
        · exact ⟨_, .inr rfl, h⟩
      split at he
      · cases he
      · rename_i hl
        cases he
        obtain ⟨sp1, h1⟩ := metaPath_ident hp (by rcases hx' with rfl | rfl <;> simp)
        exact .uses sp1 sp hx' h1 hd hl
    · cases he
      exact unk _
  · simp only [rootStep] at he
    split at he
    · rename_i s hs'
      split at he
      · rename_i hx
        obtain rfl : p = .ofIdents ["flavor"] := by simpa [Path.isIdent] using hx
        obtain ⟨sp1, h5⟩ := metaPath_ident hp (by simp)
        cases hf : flavorPathOfString s with
        | ok l =>
          rw [hf] at he
          cases he
        | error f =>
          rw [hf] at he
          cases he
          have hv : valueOf ts = r2 := by simp [valueOf, hp, h1]
          have hno : ∀ l : List String, ¬ SpelledAs s.toList (l.map String.toList) := by
            intro l hl
            rw [(C65_string s l).2 hl] at hf
            cases hf
          have hb : ∃ sp' r', Begins (.lit (.str s) sp') r' r2 := by
            obtain ⟨sp', rfl | ⟨rfl, hb⟩⟩ := hR.strings.literal h2 hs'
            · exact ⟨sp', r, begins_self (by simp) _⟩
            · exact ⟨sp', [], hb⟩
          obtain ⟨sp', r', hb⟩ := hb
          have : argPlace R ts (.nv (.ofIdents ["flavor"]) v) (.flavorPath f) = .token sp' := by
            simp only [argPlace, hv, leftPlace_begins hb]
            rfl
          rw [this]
          exact .string sp1 sp sp' h5 (begins_iff.2 h1) hb hno
      · cases he
        exact unk _
    · cases he
      exact unk _

/-- The loop finds the first argument that is not accepted. -/
theorem rootLoop_spec {R : ArgReader} (hR : R.Sound) {env : Env} : ∀ (n : Nat) {ts : List TT} {ms : List Meta} (ra : RootAttr),
    terminated (metaOne R.value) n ts = some ms →
    (rootLoop R env ra (terminatedAt (metaOne R.value) n ts)).mapError Prod.fst = parseRoot env ra ms ∧
    ∀ e p, rootLoop R env ra (terminatedAt (metaOne R.value) n ts) = .error (e, p) →
      ∃ us m r ra', Behind env us ts ∧ metaOne R.value us = some (m, r) ∧ rootStep env ra' m = .error e ∧
        p = argPlace R us m e := by
  intro n
  induction n with
  | zero =>
    intro ts ms ra h
    cases ts with
    | nil =>
      cases h
      exact ⟨rfl, fun e p h => by cases h⟩
    | cons => cases h
  | succ n ih =>
    intro ts ms ra h
    cases ts with
    | nil =>
      cases h
      simp only [terminatedAt, metaOne_nil]
      exact ⟨rfl, fun e p h => by cases h⟩
    | cons t ts =>
      rw [terminatedAt]
      cases hm : metaOne R.value (t :: ts) with
      | none =>
        rw [terminated, hm] at h
        · cases h
        · simp
      | some x =>
        obtain ⟨m, r⟩ := x
        simp only [rootLoop]
        cases hs : rootStep env ra m with
        | error e =>
          have : ∃ ms', ms = m :: ms' := by
            rw [terminated, hm] at h
            · cases r with
              | nil => cases h; exact ⟨[], rfl⟩
              | cons u r =>
                simp only at h
                split at h
                · obtain ⟨ms', -, rfl⟩ := Option.map_eq_some_iff.1 h
                  exact ⟨ms', rfl⟩
                · cases h
            · simp
          obtain ⟨ms', rfl⟩ := this
          refine ⟨by simp [parseRoot, hs, bind, Except.bind, Except.mapError], fun e' p h => ?_⟩
          cases h
          exact ⟨_, m, r, ra, .here, hm, hs, rfl⟩
        | ok ra1 =>
          obtain ⟨a, ha, -⟩ := argText_of_read hR.strings hm hs
          rw [terminated, hm] at h
          · cases r with
            | nil =>
              cases h
              simp only [enteredAll, rootLoop]
              exact ⟨by simp [parseRoot, hs, bind, Except.bind, Except.mapError], fun e p h => by cases h⟩
            | cons u r =>
              simp only at h
              split at h
              · rename_i sp r' hc
                obtain ⟨ms', h1, rfl⟩ := Option.map_eq_some_iff.1 h
                rw [hc]
                simp only
                obtain ⟨i1, i2⟩ := ih ra1 h1
                refine ⟨by rw [i1]; simp [parseRoot, hs, bind, Except.bind], fun e p h => ?_⟩
                obtain ⟨us, m', r1, ra', hb, h2, h3, h4⟩ := i2 e p h
                exact ⟨us, m', r1, ra', .next sp ha (begins_iff.2 hc) hb, h2, h3, h4⟩
              · cases h
          · simp

theorem behind_within {env : Env} {us ts : List TT} (h : Behind env us ts) {t : TT} (hw : Within t us) : Within t ts := by
  induction h with
  | here => exact hw
  | next sp ha hc _ ih =>
    have h1 := within_rest hc ih
    have words : ∀ {l : List String} {r ts : List TT}, WordsText l r ts → Within t r → Within t ts := by
      intro l r ts h hw
      induction h with
      | one _ _ h => exact within_rest h hw
      | cons _ _ h1 h2 _ ih => exact within_rest h1 (within_colons h2 (ih hw))
    cases ha with
    | path h => exact words h h1
    | rooted hc h => exact within_colons hc (words h h1)
    | unsafe_ _ h => exact within_rest h h1
    | uses _ _ _ h => exact within_rest h (.later _ h1)
    | named _ _ h2 h3 h4 =>
      refine within_rest h2 (within_rest h3 ?_)
      obtain ⟨sp, rfl | ⟨rfl, -⟩⟩ := h4
      · exact .later _ h1
      · cases h1

theorem rootLoad_error {env : Env} {r : RootAttr} {e : Err} (h : rootLoad env r = .error e) : AboutFlavor e := by
  have hd : flavorPathOfString "default" = .ok ["default"] := by decide +kernel
  simp only [rootLoad, hd, Except.mapError, bind, Except.bind, lookupFlavor] at h
  split at h
  · rename_i h1
    cases h
    split at h1
    · cases h1; exact .load _
    · split at h1
      · cases h1
      · cases h1; exact .missing _ _
  · cases h

theorem meta_of_anyArg {value : List TT → Option (Value × List TT)} {ts r : List TT} (h : AnyArg value r ts) :
    ∃ m, metaOne value ts = some (m, r) := by
  cases h with
  | name hn h1 h2 =>
    obtain ⟨p, hp⟩ := wholeName_iff.1 hn
    refine ⟨.path p, ?_⟩
    rw [metaOne, hp]
    simp only
    split
    · rename_i h; exact absurd (begins_iff.2 h) (h2 _ _ _ _)
    · rename_i h; exact absurd (begins_iff.2 h) (h1 _ _)
    · rfl
  | list sp hn hd =>
    obtain ⟨p, hp⟩ := wholeName_iff.1 hn
    exact ⟨_, metaOne_list hp hd⟩
  | value sp hn hb hv =>
    obtain ⟨p, hp⟩ := wholeName_iff.1 hn
    exact ⟨_, by rw [metaOne_nv hp (begins_iff.1 hb), hv]; rfl⟩

theorem terminated_anyArgs {R : ArgReader} (hR : R.Sound) : ∀ (n : Nat) {ts : List TT}, (openedAll ts).length ≤ n →
    ((∃ ms, terminated (metaOne R.value) n ts = some ms) ↔ AnyArgs R.value ts) := by
  intro n
  have back : ∀ {ts : List TT}, AnyArgs R.value ts → ∀ n, (openedAll ts).length ≤ n →
      ∃ ms, terminated (metaOne R.value) n ts = some ms := by
    intro ts h
    induction h with
    | nil => intro n _; exact ⟨[], by cases n <;> rfl⟩
    | @one ts ha =>
      intro n hn
      obtain ⟨m, hm⟩ := meta_of_anyArg ha
      have hlt := metaOne_shorter hR hm
      obtain ⟨n, rfl⟩ : ∃ m, n = m + 1 := ⟨n - 1, by omega⟩
      refine ⟨[m], ?_⟩
      cases ts with
      | nil => simp [openedAll] at hlt
      | cons t ts => simp [terminated, hm]
    | @cons r r' ts sp ha hc _ ih =>
      intro n hn
      obtain ⟨m, hm⟩ := meta_of_anyArg ha
      have hlt := metaOne_shorter hR hm
      have hlt' := enters_shorter hc
      obtain ⟨n, rfl⟩ : ∃ m, n = m + 1 := ⟨n - 1, by omega⟩
      obtain ⟨ms, h1⟩ := ih n (by omega)
      refine ⟨m :: ms, ?_⟩
      have hr : r ≠ [] := by
        rintro rfl
        simp [openedAll] at hlt'
      cases ts with
      | nil => simp [openedAll] at hlt
      | cons t ts =>
        rw [terminated, hm]
        · simp [begins_iff.1 hc, h1]
        · simp
  refine fun {ts} hn => ⟨?_, fun h => back h n hn⟩
  rintro ⟨ms, h⟩
  induction n generalizing ts ms with
  | zero =>
    cases ts with
    | nil => exact .nil
    | cons => cases h
  | succ n ih =>
    cases ts with
    | nil => exact .nil
    | cons t ts =>
      rw [terminated] at h
      · split at h
        · cases h
        · rename_i m h1
          exact .one (anyArg_of_meta h1)
        · rename_i m r _ h1
          have hlt := metaOne_shorter hR h1
          split at h
          · rename_i sp r' hc
            have hlt' := enters_shorter (begins_iff.2 hc)
            obtain ⟨ms', h3, rfl⟩ := Option.map_eq_some_iff.1 h
            exact .cons sp (anyArg_of_meta h1) (begins_iff.2 hc) (ih (by omega) ms' h3)
          · cases h
      · simp

theorem within_whole {t : TT} {r ts : List TT} (h : WholeName r ts) (hw : Within t r) : Within t ts := within_name h.1 hw

theorem within_anyArg {R : ErrReader} (hR : R.Sound) {t : TT} {r ts : List TT} (h : AnyArg R.value r ts)
    (hw : Within t r) : Within t ts := by
  cases h with
  | name hn => exact within_whole hn hw
  | list sp hn => exact within_whole hn (.later _ hw)
  | value sp hn hb hv => exact within_whole hn (within_rest hb (hR.rest hv hw))

/-- Errors in the text of arguments are shown at one of its tokens, or at `#[hooq]`. -/
theorem argsFault_within {R : ErrReader} (hR : R.Sound) {ts : List TT} {p : ErrPlace} (h : ArgsFault R ts p) :
    ∀ {sp}, p = .token sp → ∃ t, Within t ts ∧ sp = t.span := by
  induction h with
  | name h =>
    rintro sp rfl
    cases h with
    | place h => exact h.within
    | colon _ hp => exact ⟨_, within_passes hp (.here _), rfl⟩
  | wrapped _ _ hn =>
    rintro sp ⟨⟩
    exact ⟨_, within_whole hn (.here _), rfl⟩
  | value _ hn hb hv =>
    intro sp h
    obtain ⟨t, hw, hs⟩ := hR.fault hv h
    exact ⟨t, within_whole hn (within_rest hb hw), hs⟩
  | behind ha =>
    rintro sp ⟨⟩
    exact ⟨_, within_anyArg hR ha (.here _), rfl⟩
  | later _ ha hb _ ih =>
    intro sp h
    obtain ⟨t, hw, hs⟩ := ih h
    exact ⟨t, within_anyArg hR ha (within_rest hb hw), hs⟩

end Hooq
