import Verif.Spec.ExcerptArgs
import Verif.Proof.Unwrap
import Verif.Props.ExcerptLaws

/-!
# Options of the excerpt macros (C48)
-/

namespace Hooq

theorem entered_eq {t : TT} {r ts : List TT} (h : Begins t r ts) : enteredAll ts = some (t :: r) :=
  (enters_iff _ _).1 h

theorem litOf_iff {E : Type} (R : OptReader E) (l : OptLit) (r ts : List TT) :
    litOf R ts = some (l, r) ↔ LitText R l r ts := by
  constructor
  · intro h
    unfold litOf at h
    split at h
    · rename_i x sp r' he
      cases h
      exact .lit sp ((enters_iff _ _).2 he)
    · rename_i x sp r' he
      split at h
      · rename_i hx
        cases h
        exact .bool sp hx ((enters_iff _ _).2 he)
      · cases h
    · rename_i sp r' he
      split at h
      · rename_i x sp2 r2 he2
        split at h
        · rename_i hn
          split at h
          · rename_i v hv
            cases h
            exact .negInt sp sp2 ((enters_iff _ _).2 he) ((enters_iff _ _).2 he2) hn hv
          · rename_i hv
            cases h
            exact .negFloat sp sp2 ((enters_iff _ _).2 he) ((enters_iff _ _).2 he2) hn fun v e => hv v e
        · cases h
      · cases h
    · cases h
  · intro h
    cases h with
    | lit sp h => simp only [litOf, entered_eq h]
    | bool sp hx h => simp only [litOf, entered_eq h, if_pos hx]
    | negInt sp1 sp2 h1 h2 hn hv => simp only [litOf, entered_eq h1, entered_eq h2, if_pos hn, hv]
    | negFloat sp1 sp2 h1 h2 hn hv =>
      simp only [litOf, entered_eq h1, entered_eq h2, if_pos hn]

theorem peekPunct_iff (c : Char) (ts : List TT) : peekPunct c ts = true ↔ ∃ sp r, Begins (.punct c sp) r ts := by
  constructor
  · intro h
    unfold peekPunct at h
    split at h
    · rename_i c' sp r he
      obtain rfl : c = c' := by simpa using h
      exact ⟨sp, r, (enters_iff _ _).2 he⟩
    · cases h
  · rintro ⟨sp, r, h⟩
    simp [peekPunct, entered_eq h]

theorem optName_iff (x : String) :
    keywords.contains x = false ↔ x ∉ otherKeywords ++ ["super", "self", "Self", "crate"] := by
  have h1 : ∀ x ∈ keywords, x ∈ otherKeywords ++ ["super", "self", "Self", "crate"] := by decide +kernel
  have h2 : ∀ x ∈ otherKeywords ++ ["super", "self", "Self", "crate"], x ∈ keywords := by decide +kernel
  rw [List.contains_eq_mem, decide_eq_false_iff_not]
  exact not_congr ⟨h1 x, h2 x⟩

/-- An option, then `r`. -/
def OptText {E : Type} (R : OptReader E) (o : Opt) (r ts : List TT) : Prop :=
  match o with
  | (name, none) => NameText name r ts ∧ (peekPunct ',' r || peekPunct ';' r) = true
  | (name, some l) => ∃ sp r1 r2, NameText name r1 ts ∧ Begins (.punct '=' sp) r2 r1 ∧ LitText R l r r2

theorem parseOpt_iff {E : Type} (R : OptReader E) (o : Opt) (r ts : List TT) :
    parseOpt R ts = some (o, r) ↔ OptText R o r ts := by
  constructor
  · intro h
    unfold parseOpt at h
    split at h
    · rename_i sp r1 h1
      split at h
      · rename_i name sp2 r2 h2
        split at h
        · cases h
        · rename_i hk
          have hn : NameText name r2 ts := ⟨(optName_iff name).1 (by simpa using hk), sp, sp2, r1,
            (enters_iff _ _).2 h1, (enters_iff _ _).2 h2⟩
          split at h
          · rename_i hp
            cases h
            exact ⟨hn, hp⟩
          · split at h
            · rename_i sp3 r3 h3
              cases hl : litOf R r3 with
              | none => simp [hl] at h
              | some q =>
                obtain ⟨l, r4⟩ := q
                simp only [hl, Option.map_some, Option.some.injEq, Prod.mk.injEq] at h
                obtain ⟨rfl, rfl⟩ := h
                exact ⟨sp3, r2, r3, hn, (enters_iff _ _).2 h3, (litOf_iff R _ _ _).1 hl⟩
            · cases h
      · cases h
    · cases h
  · intro h
    rcases o with ⟨name, _ | l⟩
    · obtain ⟨⟨hk, sp, sp2, r1, h1, h2⟩, hp⟩ := h
      simp only [parseOpt, entered_eq h1, entered_eq h2, (optName_iff name).2 hk, hp, if_true, Bool.false_eq_true,
        if_false]
    · obtain ⟨sp3, r2, r3, ⟨hk, sp, sp2, r1, h1, h2⟩, h3, h4⟩ := h
      have hp : (peekPunct ',' r2 || peekPunct ';' r2) = false := by
        simp [peekPunct, entered_eq h3]
      simp only [parseOpt, entered_eq h1, entered_eq h2, (optName_iff name).2 hk, hp, Bool.false_eq_true,
        if_false, entered_eq h3, (litOf_iff R _ _ _).2 h4, Option.map_some]

theorem OptText.begins {E : Type} {R : OptReader E} {o : Opt} {r ts : List TT} (h : OptText R o r ts) :
    ∃ sp r', Begins (.punct '@' sp) r' ts := by
  rcases o with ⟨name, _ | l⟩
  · obtain ⟨⟨_, sp, _, r1, h1, _⟩, _⟩ := h
    exact ⟨sp, r1, h1⟩
  · obtain ⟨_, _, _, ⟨_, sp, _, r1, h1, _⟩, _⟩ := h
    exact ⟨sp, r1, h1⟩

theorem litText_shorter {E : Type} {R : OptReader E} {l : OptLit} {r ts : List TT} (h : LitText R l r ts) :
    (openedAll r).length < (openedAll ts).length := by
  cases h with
  | lit _ h => exact enters_shorter h
  | bool _ _ h => exact enters_shorter h
  | negInt _ _ h1 h2 => exact Nat.lt_trans (enters_shorter h2) (enters_shorter h1)
  | negFloat _ _ h1 h2 => exact Nat.lt_trans (enters_shorter h2) (enters_shorter h1)

theorem optText_shorter {E : Type} {R : OptReader E} {o : Opt} {r ts : List TT} (h : OptText R o r ts) :
    (openedAll r).length + 2 ≤ (openedAll ts).length := by
  rcases o with ⟨name, _ | l⟩
  · obtain ⟨⟨_, _, _, _, h1, h2⟩, _⟩ := h
    have := enters_shorter h1
    have := enters_shorter h2
    omega
  · obtain ⟨_, _, _, ⟨_, _, _, _, h1, h2⟩, h3, h4⟩ := h
    have := enters_shorter h1
    have := enters_shorter h2
    have := enters_shorter h3
    have := litText_shorter h4
    omega

/-- The loop after a successful option. -/
theorem optLoop_step {E : Type} {R : OptReader E} {fuel : Nat} {a : OptArgs} {ts r : List TT} {o : Opt}
    (h : OptText R o r ts) :
    optLoop R (fuel + 1) a ts = match applyOpt a o.1 o.2 with
      | none => none
      | some a => optLoop R fuel a (skipComma r) := by
  obtain ⟨sp, r', hb⟩ := h.begins
  rw [optLoop, entered_eq hb, (parseOpt_iff R o r ts).2 h]
  split
  · rename_i he
    simp at he
  · rfl

/-- Options one after the other. -/
def runOpts (a : OptArgs) : List Opt → Option OptArgs
  | [] => some a
  | o :: os => match applyOpt a o.1 o.2 with
    | none => none
    | some a => runOpts a os

theorem runOpts_append (a : OptArgs) (os os' : List Opt) :
    runOpts a (os ++ os') = (runOpts a os).bind fun a => runOpts a os' := by
  induction os generalizing a with
  | nil => rfl
  | cons o os ih =>
    simp only [List.cons_append, runOpts]
    cases applyOpt a o.1 o.2 with
    | none => rfl
    | some a => exact ih a

/-- What one option does. -/
theorem applyOpt_eq (a : OptArgs) (o : Opt) :
    (o.valid → applyOpt a o.1 o.2 = some
      { maxLines := o.lines.or a.maxLines, trunc := o.trunc.or a.trunc,
        lineNum := a.lineNum || o.lineNum, padding := o.padding.or a.padding }) ∧
    (¬ o.valid → applyOpt a o.1 o.2 = none) := by
  obtain ⟨name, val⟩ := o
  obtain ⟨m, t, n, p⟩ := a
  have d12 : "excerpt_line" ≠ "truncate_str" := by decide
  have d13 : "excerpt_line" ≠ "show_line_num" := by decide
  have d14 : "excerpt_line" ≠ "padding" := by decide
  have d23 : "truncate_str" ≠ "show_line_num" := by decide
  have d24 : "truncate_str" ≠ "padding" := by decide
  have d34 : "show_line_num" ≠ "padding" := by decide
  simp only [Opt.valid, Opt.lines, Opt.trunc, Opt.lineNum, Opt.padding, applyOpt]
  generalize "excerpt_line" = s1 at *
  generalize "truncate_str" = s2 at *
  generalize "show_line_num" = s3 at *
  generalize "padding" = s4 at *
  generalize "top" = v1
  generalize "bottom" = v2
  generalize "both" = v3
  by_cases h1 : name = s1
  · subst h1
    rcases val with _ | (_ | _) | _ | _ <;> simp [*]
  · by_cases h2 : name = s2
    · subst h2
      rcases val with _ | (_ | _) | _ | _ <;> simp [*]
    · by_cases h3 : name = s3
      · subst h3
        rcases val with _ | (_ | _) | _ | _ <;> simp [*]
      · by_cases h4 : name = s4
        · subst h4
          rcases val with _ | (_ | _) | s | _
          · simp [*]
          · simp [*]
          · simp [*]
          · by_cases g1 : s = v1
            · simp [*]
            · by_cases g2 : s = v2
              · subst g2; simp [*]
              · by_cases g3 : s = v3
                · subst g3; simp [*]
                · simp [*]
          · simp [*]
        · rcases val with _ | (_ | _) | _ | _ <;> simp [*]

theorem lastOpt_cons {α : Type} (f : Opt → Option α) (o : Opt) (os : List Opt) :
    lastOpt f (o :: os) = (lastOpt f os).or (f o) := by
  simp only [lastOpt, List.reverse_cons, List.findSome?_append, List.findSome?_cons, List.findSome?_nil]
  cases f o <;> rfl

theorem runOpts_eq (a : OptArgs) (os : List Opt) :
    ((∀ o ∈ os, o.valid) → runOpts a os = some
      { maxLines := (lastOpt Opt.lines os).or a.maxLines, trunc := (lastOpt Opt.trunc os).or a.trunc,
        lineNum := a.lineNum || os.any Opt.lineNum, padding := (lastOpt Opt.padding os).or a.padding }) ∧
    ((¬ ∀ o ∈ os, o.valid) → runOpts a os = none) := by
  induction os generalizing a with
  | nil => exact ⟨fun _ => by cases a; simp [runOpts, lastOpt], fun h => absurd (by simp) h⟩
  | cons o os ih =>
    by_cases hv : o.valid
    · have h1 := (applyOpt_eq a o).1 hv
      simp only [runOpts, h1]
      constructor
      · intro h
        rw [(ih _).1 (fun x hx => h x (by simp [hx]))]
        simp only [lastOpt_cons, Option.or_assoc, List.any_cons, Bool.or_assoc]
      · intro h
        exact (ih _).2 fun hc => h (by
          intro x hx
          rcases List.mem_cons.1 hx with rfl | hx
          · exact hv
          · exact hc x hx)
    · have h1 := (applyOpt_eq a o).2 hv
      exact ⟨fun h => absurd (h o (by simp)) hv, fun _ => by simp only [runOpts, h1]⟩

theorem runOpts_new {os : List Opt} (h : ∀ o ∈ os, o.valid) : runOpts {} os = some (meaning os) := by
  rw [(runOpts_eq {} os).1 h]
  simp [meaning]

theorem skipComma_comma {sp : Span} {r ts : List TT} (h : Begins (.punct ',' sp) r ts) : skipComma ts = r := by
  simp only [skipComma, entered_eq h]

theorem skipComma_other {ts : List TT} (h : ¬ ∃ sp r, Begins (.punct ',' sp) r ts) : skipComma ts = ts := by
  unfold skipComma
  split
  · rename_i sp r he
    exact absurd ⟨sp, r, (enters_iff _ _).2 he⟩ h
  · rfl

theorem begins_unique {t u : TT} {r r' ts : List TT} (h : Begins t r ts) (h' : Begins u r' ts) : t = u ∧ r = r' := by
  have := (entered_eq h).symm.trans (entered_eq h')
  simpa using this

theorem inputText_no_comma {E : Type} {R : OptReader E} {os : List Opt} {payload ts : List TT}
    (h : InputText R os payload ts) : ¬ ∃ sp r, Begins (.punct ',' sp) r ts := by
  rintro ⟨sp, r, hb⟩
  have name : ∀ {n : String} {r1 : List TT}, ¬ NameText n r1 ts := by
    rintro n r1 ⟨_, _, _, _, h1, _⟩
    have := (begins_unique h1 hb).1
    simp at this
  cases h with
  | plain hm => exact hm ⟨_, _, _, .inr (.inl rfl), hb⟩
  | semi _ h =>
    have := (begins_unique h hb).1
    simp at this
  | flag _ h => exact name h
  | flagSemi _ h => exact name h
  | value _ _ h => exact name h
  | bare _ h => exact name h

theorem optLoop_plain {E : Type} {R : OptReader E} {ts : List TT} (h : ¬ Marked ts) (fuel : Nat) (a : OptArgs) :
    optLoop R fuel a ts = some (a, ts) := by
  cases fuel with
  | zero => rfl
  | succ fuel =>
    unfold optLoop
    split
    · rename_i sp r he
      exact absurd ⟨_, _, _, .inr (.inr rfl), (enters_iff _ _).2 he⟩ h
    · cases hp : parseOpt R ts with
      | none => rfl
      | some p =>
        obtain ⟨sp, r, hb⟩ := ((parseOpt_iff R p.1 p.2 ts).1 hp).begins
        exact absurd ⟨_, _, _, .inl rfl, hb⟩ h

theorem optLoop_semi {E : Type} {R : OptReader E} {sp : Span} {payload ts : List TT}
    (h : Begins (.punct ';' sp) payload ts) {fuel : Nat} (hf : (openedAll ts).length ≤ fuel) (a : OptArgs) :
    optLoop R fuel a ts = some (a, payload) := by
  have := enters_shorter h
  cases fuel with
  | zero => omega
  | succ fuel => simp only [optLoop, entered_eq h]

theorem optLoop_input {E : Type} {R : OptReader E} {os : List Opt} {payload ts : List TT}
    (h : InputText R os payload ts) : ∀ (fuel : Nat) (a : OptArgs), (openedAll ts).length ≤ fuel →
    optLoop R fuel a ts = (runOpts a os).map fun a => (a, payload) := by
  have step : ∀ {o : Opt} {os : List Opt} {r ts payload : List TT}, OptText R o r ts →
      (∀ (fuel : Nat) (a : OptArgs), (openedAll r).length ≤ fuel →
        optLoop R fuel a (skipComma r) = (runOpts a os).map fun a => (a, payload)) →
      ∀ (fuel : Nat) (a : OptArgs), (openedAll ts).length ≤ fuel →
        optLoop R fuel a ts = (runOpts a (o :: os)).map fun a => (a, payload) := by
    intro o os r ts payload ht ih fuel a hf
    have := optText_shorter ht
    obtain ⟨f, rfl⟩ : ∃ f, fuel = f + 1 := ⟨fuel - 1, by omega⟩
    rw [optLoop_step ht]
    simp only [runOpts]
    cases applyOpt a o.1 o.2 with
    | none => rfl
    | some a => exact ih f a (by omega)
  induction h with
  | plain hm => exact fun fuel a _ => optLoop_plain hm fuel a
  | semi sp hb => exact fun fuel a hf => optLoop_semi hb hf a
  | flag sp hn hc _ ih =>
    refine step (o := (_, none)) ⟨hn, ?_⟩ fun fuel a hf => ?_
    · simp [(peekPunct_iff _ _).2 ⟨_, _, hc⟩]
    · rw [skipComma_comma hc]
      exact ih fuel a (by have := enters_shorter hc; omega)
  | flagSemi sp hn hc =>
    refine step (o := (_, none)) ⟨hn, ?_⟩ fun fuel a hf => ?_
    · simp [(peekPunct_iff _ _).2 ⟨_, _, hc⟩]
    · rw [skipComma_other]
      · exact optLoop_semi hc hf a
      · rintro ⟨_, _, hb⟩
        have := (begins_unique hc hb).1
        simp at this
  | value sp1 sp2 hn he hl hc _ ih =>
    refine step (o := (_, some _)) ⟨_, _, _, hn, he, hl⟩ fun fuel a hf => ?_
    rw [skipComma_comma hc]
    exact ih fuel a (by have := enters_shorter hc; omega)
  | bare sp hn he hl hi ih =>
    refine step (o := (_, some _)) ⟨_, _, _, hn, he, hl⟩ fun fuel a hf => ?_
    rw [skipComma_other (inputText_no_comma hi)]
    exact ih fuel a hf

/-- C48.  Options in any order, written in any of the allowed ways: if all are known and
have allowed values, the last of each name counts, and the expression is read from the
payload, unchanged; if not, the input is rejected. -/
theorem C48_options {E : Type} (R : OptReader E) {os : List Opt} {payload ts : List TT}
    (h : InputText R os payload ts) :
    ((∀ o ∈ os, o.valid) → parseArgs R ts = (R.expr payload).map fun e => (meaning os, e)) ∧
    ((¬ ∀ o ∈ os, o.valid) → parseArgs R ts = none) := by
  simp only [parseArgs, optLoop_input h _ _ (Nat.le_refl _)]
  exact ⟨fun hv => by simp [runOpts_new hv], fun hv => by simp [(runOpts_eq {} os).2 hv]⟩

/-- The loop accepts only inputs of this form, or leaves a rest that begins with a
mark. -/
theorem optLoop_form {E : Type} {R : OptReader E} (fuel : Nat) : ∀ (a a' : OptArgs) (ts r : List TT),
    optLoop R fuel a ts = some (a', r) → (openedAll ts).length ≤ fuel →
    (∃ os, InputText R os r ts ∧ runOpts a os = some a') ∨
      ∃ c sp r', (c = '@' ∨ c = ',') ∧ Begins (.punct c sp) r' r := by
  induction fuel with
  | zero =>
    intro a a' ts r h hf
    cases h
    refine .inl ⟨[], .plain ?_, rfl⟩
    rintro ⟨_, _, _, _, hb⟩
    have := enters_shorter hb
    omega
  | succ fuel ih =>
    intro a a' ts r h hf
    unfold optLoop at h
    split at h
    · rename_i sp r1 he
      cases h
      exact .inl ⟨[], .semi sp ((enters_iff _ _).2 he), rfl⟩
    · rename_i hsemi
      split at h
      · cases h
        by_cases hm : Marked ts
        · obtain ⟨c, sp, r', hc, hb⟩ := hm
          rcases hc with rfl | rfl | rfl
          · exact .inr ⟨_, sp, r', .inl rfl, hb⟩
          · exact .inr ⟨_, sp, r', .inr rfl, hb⟩
          · exact absurd (entered_eq hb) (hsemi sp r')
        · exact .inl ⟨[], .plain hm, rfl⟩
      · rename_i name val r1 hp
        split at h
        · cases h
        · rename_i a1 hap
          have ht := (parseOpt_iff R _ _ _).1 hp
          have hlen := optText_shorter ht
          have hrun : ∀ os, runOpts a1 os = some a' → runOpts a ((name, val) :: os) = some a' := by
            intro os h2
            simp only [runOpts, hap]
            exact h2
          by_cases hcm : ∃ sp r2, Begins (.punct ',' sp) r2 r1
          · obtain ⟨sp, r2, hb⟩ := hcm
            rw [skipComma_comma hb] at h
            have := enters_shorter hb
            rcases ih a1 a' _ r h (by omega) with ⟨os, h1, h2⟩ | h1
            · refine .inl ⟨_, ?_, hrun os h2⟩
              cases val with
              | none => exact .flag sp ht.1 hb h1
              | some l =>
                obtain ⟨sp3, q1, q2, hn, he, hl⟩ := ht
                exact .value sp3 sp hn he hl hb h1
            · exact .inr h1
          · rw [skipComma_other hcm] at h
            cases val with
            | none =>
              obtain ⟨hn, hpk⟩ := ht
              have hs : ∃ sp r2, Begins (.punct ';' sp) r2 r1 := by
                rw [← peekPunct_iff]
                cases hq : peekPunct ',' r1 with
                | true => exact absurd ((peekPunct_iff _ _).1 hq) hcm
                | false => simpa [hq] using hpk
              obtain ⟨sp, r2, hb⟩ := hs
              rw [optLoop_semi hb (by omega)] at h
              cases h
              exact .inl ⟨[(name, none)], .flagSemi sp hn hb, by simp only [runOpts, hap]⟩
            | some l =>
              obtain ⟨sp3, q1, q2, hn, he, hl⟩ := ht
              rcases ih a1 a' _ r h (by omega) with ⟨os, h1, h2⟩ | h1
              · exact .inl ⟨_, .bare sp3 hn he hl h1, hrun os h2⟩
              · exact .inr h1

/-- C48.  Nothing else is accepted, provided that no expression begins with `@` or `,`. -/
theorem C48_only {E : Type} {R : OptReader E}
    (hx : ∀ c sp r ts, c = '@' ∨ c = ',' → Begins (.punct c sp) r ts → R.expr ts = none) {ts : List TT} {a : OptArgs}
    {e : E} (h : parseArgs R ts = some (a, e)) :
    ∃ os payload, InputText R os payload ts ∧ (∀ o ∈ os, o.valid) ∧ a = meaning os ∧ R.expr payload = some e := by
  simp only [parseArgs] at h
  split at h
  · simp at h
  · rename_i a' r hl
    cases he : R.expr r with
    | none => simp [he] at h
    | some e' =>
      simp only [he, Option.map_some, Option.some.injEq, Prod.mk.injEq] at h
      obtain ⟨rfl, rfl⟩ := h
      rcases optLoop_form _ _ _ _ _ hl (Nat.le_refl _) with ⟨os, h1, h2⟩ | ⟨c, sp, r', hc, hb⟩
      · have hv : ∀ o ∈ os, o.valid := by
          apply Classical.byContradiction
          intro hn
          rw [(runOpts_eq {} os).2 hn] at h2
          simp at h2
        refine ⟨os, r, h1, hv, ?_, he⟩
        rw [runOpts_new hv] at h2
        exact (Option.some.inj h2).symm
      · rw [hx c sp r' r hc hb] at he
        cases he

/-- C48.  The order of options with different names does not matter. -/
theorem C48_order {o o' : Opt} (h : o.1 ≠ o'.1) (os os' : List Opt) :
    meaning (os ++ o :: o' :: os') = meaning (os ++ o' :: o :: os') := by
  have key : ∀ {α : Type} (f : Opt → Option α) (n : String), (∀ x : Opt, x.1 ≠ n → f x = none) →
      lastOpt f (os ++ o :: o' :: os') = lastOpt f (os ++ o' :: o :: os') := by
    intro α f n hf
    have hone : f o = none ∨ f o' = none := by
      by_cases h1 : o.1 = n
      · exact .inr (hf _ fun h2 => h (h1.trans h2.symm))
      · exact .inl (hf _ h1)
    simp only [lastOpt, List.reverse_append, List.reverse_cons, List.findSome?_append, List.findSome?_cons,
      List.findSome?_nil, List.append_assoc]
    rcases hone with e | e <;> simp [e]
  simp only [meaning]
  rw [key Opt.lines "excerpt_line", key Opt.trunc "truncate_str",
    key Opt.padding "padding"]
  · congr 1
    simp only [List.any_append, List.any_cons]
    cases Opt.lineNum o <;> cases Opt.lineNum o' <;> rfl
  · intro x hx; simp only [Opt.padding, if_neg hx]
  · intro x hx; simp only [Opt.trunc, if_neg hx]
  · intro x hx
    simp only [Opt.lines, if_neg hx]
    split <;> rfl

theorem valid_kind {o : Opt} (hv : o.valid) :
    (o.lines = none → o.1 ≠ "excerpt_line") ∧ (o.trunc = none → o.1 ≠ "truncate_str") ∧
    (o.padding = none → o.1 ≠ "padding") := by
  obtain ⟨name, val⟩ := o
  have d12 : "excerpt_line" ≠ "truncate_str" := by decide
  have d13 : "excerpt_line" ≠ "show_line_num" := by decide
  have d14 : "excerpt_line" ≠ "padding" := by decide
  have d23 : "truncate_str" ≠ "show_line_num" := by decide
  have d24 : "truncate_str" ≠ "padding" := by decide
  have d34 : "show_line_num" ≠ "padding" := by decide
  simp only [Opt.valid, Opt.lines, Opt.trunc, Opt.lineNum, Opt.padding] at *
  generalize "excerpt_line" = s1 at *
  generalize "truncate_str" = s2 at *
  generalize "show_line_num" = s3 at *
  generalize "padding" = s4 at *
  refine ⟨fun h e => ?_, fun h e => ?_, fun h e => ?_⟩
  · subst e
    rcases val with _ | (_ | _) | _ | _ <;> simp_all
  · subst e
    rcases val with _ | (_ | _) | _ | _ <;> simp_all
  · subst e
    have := Ne.symm d14
    have := Ne.symm d24
    have := Ne.symm d34
    rcases val with _ | (_ | _) | _ | _ <;> simp_all

/-- C48.  A later option of the same name overrides an earlier one. -/
theorem C48_override {o o' : Opt} (hv : o'.valid) (h : o.1 = o'.1) (os os' : List Opt) :
    meaning (os ++ o :: (os' ++ [o'])) = meaning (os ++ (os' ++ [o'])) := by
  have key : ∀ {α : Type} (f : Opt → Option α), (f o' = none → f o = none) →
      lastOpt f (os ++ o :: (os' ++ [o'])) = lastOpt f (os ++ (os' ++ [o'])) := by
    intro α f hf
    simp only [lastOpt, List.reverse_append, List.reverse_cons, List.findSome?_append, List.findSome?_cons,
      List.findSome?_nil, List.append_assoc, List.reverse_nil]
    cases ho : f o' with
    | none => simp [hf ho]
    | some _ => simp
  obtain ⟨n, v⟩ := o
  obtain ⟨n', v'⟩ := o'
  simp only at h
  subst h
  obtain ⟨k1, k2, k3⟩ := valid_kind hv
  simp only [meaning]
  have hany : (os ++ (n, v) :: (os' ++ [(n, v')])).any Opt.lineNum = (os ++ (os' ++ [(n, v')])).any Opt.lineNum := by
    simp only [List.any_append, List.any_cons, List.any_nil, Opt.lineNum]
    cases decide (n = "show_line_num") <;> simp
  rw [hany, key Opt.lines, key Opt.trunc, key Opt.padding]
  · intro hp; simp only [Opt.padding, if_neg (k3 hp)]
  · intro hp; simp only [Opt.trunc, if_neg (k2 hp)]
  · intro hp
    simp only [Opt.lines, if_neg (k1 hp)]
    split <;> rfl

/-- C48.  Without options the defaults apply: no truncation limit other than 10, no line
numbers, no padding in `pretty_stringify!`, and in `excerpted_pretty_stringify!` five
lines, truncated literals, line numbers and padding below. -/
theorem C48_defaults (spell : List Char → List Char) (ws : Char → Bool) (R : OptReader PExpr)
    {ts : List TT} (h : ¬ Marked ts) {e : PExpr} (he : R.expr ts = some e) :
    truncateMacro spell R ts = some ((Folder.new 10).toks spell e.toks |> fun t => { e with toks := t }) ∧
    prettyMacro R ts = some e.pretty ∧
    oneLineMacro ws spell R ts = some (oneLine ws spell none e) ∧
    excerptMacro spell R ts = excerpted spell ⟨5, some none, ⟨true, false, true⟩⟩ e := by
  have hp : parseArgs R ts = some ({}, e) := by
    have := (C48_options R (InputText.plain h)).1 (by simp)
    simpa [he, meaning, lastOpt] using this
  refine ⟨?_, ?_, ?_, ?_⟩
  · simp only [truncateMacro, hp, Option.map_some]; rfl
  · simp only [prettyMacro, hp, Option.map_some]
    simp [OptArgs.pad, PrettyRes.wrap, PExpr.pretty, intoPretty]
  · simp only [oneLineMacro, hp, Option.map_some]
  · simp only [excerptMacro, hp]; rfl

/-- C48.  What the options do, for each of the macros: `excerpted_pretty_stringify!` shows
line numbers and pads below in any case. -/
theorem C48_settings (spell : List Char → List Char) (ws : Char → Bool) (R : OptReader PExpr)
    {os : List Opt} {payload ts : List TT} (h : InputText R os payload ts) (hv : ∀ o ∈ os, o.valid)
    {e : PExpr} (he : R.expr payload = some e) :
    let top := decide (lastOpt Opt.padding os = some .top ∨ lastOpt Opt.padding os = some .both)
    let bottom := decide (lastOpt Opt.padding os = some .bottom ∨ lastOpt Opt.padding os = some .both)
    truncateMacro spell R ts = some (truncateLitStr spell ((lastOpt Opt.trunc os).getD none) e) ∧
    (∃ s, s = ⟨os.any Opt.lineNum, top, bottom⟩ ∧
      prettyMacro R ts = some (padAbove s e.endLine ++ prettyText e s ++ padBelow s e.endLine)) ∧
    oneLineMacro ws spell R ts = some (oneLine ws spell (lastOpt Opt.trunc os) e) ∧
    excerptMacro spell R ts = excerpted spell
      ⟨(lastOpt Opt.lines os).getD 5, some ((lastOpt Opt.trunc os).getD none), ⟨true, top, true⟩⟩ e := by
  have hp : parseArgs R ts = some (meaning os, e) := by
    simpa [he] using (C48_options R h).1 hv
  have hl : (meaning os).lineNum = os.any Opt.lineNum := rfl
  have hd : (meaning os).padding = lastOpt Opt.padding os := rfl
  refine ⟨?_, ⟨_, rfl, ?_⟩, ?_, ?_⟩
  · simp only [truncateMacro, hp, Option.map_some]; rfl
  · simp only [prettyMacro, hp, Option.map_some, PrettyRes.wrap]
    have : (meaning os).pad ⟨false, false, false⟩ = ⟨os.any Opt.lineNum,
        decide (lastOpt Opt.padding os = some .top ∨ lastOpt Opt.padding os = some .both),
        decide (lastOpt Opt.padding os = some .bottom ∨ lastOpt Opt.padding os = some .both)⟩ := by
      simp only [OptArgs.pad, hl, hd]
      cases os.any Opt.lineNum <;> rcases lastOpt Opt.padding os with _ | _ | _ | _ <;> rfl
    rw [this, intoPretty_parts]
  · simp only [oneLineMacro, hp, Option.map_some]; rfl
  · simp only [excerptMacro, hp]
    have : (meaning os).excerpt = ⟨(lastOpt Opt.lines os).getD 5, some ((lastOpt Opt.trunc os).getD none),
        ⟨true, decide (lastOpt Opt.padding os = some .top ∨ lastOpt Opt.padding os = some .both), true⟩⟩ := by
      simp only [OptArgs.excerpt, OptArgs.pad, ExcerptSetting.default, hl, hd]
      simp only [meaning]
      congr 1
      · cases lastOpt Opt.trunc os <;> rfl
      · cases os.any Opt.lineNum <;> rcases lastOpt Opt.padding os with _ | _ | _ | _ <;> rfl
    rw [this]

/-! ## Examples -/

/-- The option `@max_len` of the documentation of `truncate_lit_str!` is rejected. -/
theorem C48_max_len {E : Type} (R : OptReader E) {l : OptLit} {sp : Span} {r r1 r2 ts : List TT}
    (h1 : NameText "max_len" r1 ts) (h2 : Begins (.punct '=' sp) r2 r1) (h3 : LitText R l r r2) :
    parseArgs R ts = none := by
  have ht : OptText R ("max_len", some l) r ts := ⟨sp, r1, r2, h1, h2, h3⟩
  have := optText_shorter ht
  simp only [parseArgs]
  obtain ⟨f, hf⟩ : ∃ f, (openedAll ts).length = f + 1 := ⟨(openedAll ts).length - 1, by omega⟩
  rw [hf, optLoop_step ht]
  have : applyOpt {} "max_len" (some l) = none := by
    unfold applyOpt
    rw [if_neg (by decide), if_neg (by decide), if_neg (by decide), if_neg (by decide)]
  simp only [this]

namespace OptEx

/-- A reader of numbers and one name. -/
def reader : OptReader Unit where
  lit
    | .str s => .str s
    | .int n => .int (some n)
    | _ => .other
  number
    | .int _ => true
    | _ => false
  expr
    | [.ident "x" _] => some ()
    | _ => none

abbrev sp : Span := .callSite

/-- `@show_line_num, @excerpt_line = 3 @excerpt_line = 4, x`, where another macro has put a group
around `4`. -/
def input : List TT :=
  [.punct '@' sp, .ident "show_line_num" sp, .punct ',' sp,
   .punct '@' sp, .ident "excerpt_line" sp, .punct '=' sp, .lit (.int 3) sp,
   .punct '@' sp, .ident "excerpt_line" sp, .punct '=' sp, .group .none [.lit (.int 4) sp] sp, .punct ',' sp,
   .ident "x" sp]

theorem name (x : String) (h : x ∉ otherKeywords ++ ["super", "self", "Self", "crate"]) (r : List TT) :
    NameText x r (.punct '@' sp :: .ident x sp :: r) :=
  ⟨h, sp, sp, _, .here (by simp), .here (by simp)⟩

example : InputText reader [("show_line_num", none), ("excerpt_line", some (.int (some 3))),
    ("excerpt_line", some (.int (some 4)))] [.ident "x" sp] input :=
  .flag sp (name _ (by decide +kernel) _) (.here (by simp))
    (.bare sp (name _ (by decide +kernel) _) (.here (by simp)) (.lit (R := reader) (x := .int 3) sp (.here (by simp)))
      (.value sp sp (name _ (by decide +kernel) _) (.here (by simp))
        (.lit (R := reader) (x := .int 4) sp (.inside sp (.here (by simp)))) (.here (by simp))
        (.plain fun ⟨_, _, _, _, h⟩ => by have := entered_eq h; simp [enteredAll, TT.entered] at this)))

example : parseArgs reader input = some ({ maxLines := some 4, lineNum := true }, ()) := by decide +kernel

/-- `@padding; x` -/
example : parseArgs reader [.punct '@' sp, .ident "padding" sp, .punct ';' sp, .ident "x" sp] =
    some ({ padding := some .both }, ()) := by decide +kernel

/-- `@excerpt_line = -3, x` -/
example : parseArgs reader [.punct '@' sp, .ident "excerpt_line" sp, .punct '=' sp, .punct '-' sp, .lit (.int 3) sp,
    .punct ',' sp, .ident "x" sp] = none := by decide +kernel

end OptEx

end Hooq
