import Verif.Spec.OptPlace
import Verif.Proof.ErrPlace
import Verif.Props.ExcerptArgs

/-!
# C92: the excerpt macros as a whole, and where their errors are shown
-/

namespace Hooq

theorem oneOpt_iff {E : Type} {R : OptReader E} {o : Opt} {r ts : List TT} : OneOpt R o r ts ↔ OptText R o r ts := by
  constructor
  · intro h
    cases h with
    | flag hn hp =>
      refine ⟨hn, ?_⟩
      obtain ⟨c, sp, r', rfl | rfl, hb⟩ := hp
      · rw [(peekPunct_iff ',' r).2 ⟨sp, r', hb⟩]; rfl
      · rw [(peekPunct_iff ';' r).2 ⟨sp, r', hb⟩]; simp
    | value sp hn he hl => exact ⟨sp, _, _, hn, he, hl⟩
  · intro h
    rcases o with ⟨name, _ | l⟩
    · obtain ⟨hn, hp⟩ := h
      refine .flag hn ?_
      rcases Bool.or_eq_true_iff.1 hp with hp | hp
      · obtain ⟨sp, r', hb⟩ := (peekPunct_iff _ _).1 hp
        exact ⟨_, sp, r', .inl rfl, hb⟩
      · obtain ⟨sp, r', hb⟩ := (peekPunct_iff _ _).1 hp
        exact ⟨_, sp, r', .inr rfl, hb⟩
    · obtain ⟨sp, r1, r2, hn, he, hl⟩ := h
      exact .value sp hn he hl

theorem litText_begins {E : Type} {R : OptReader E} {l : OptLit} {r ts : List TT} (h : LitText R l r ts) :
    ∃ t r', Begins t r' ts := by
  cases h with
  | lit _ h => exact ⟨_, _, h⟩
  | bool _ _ h => exact ⟨_, _, h⟩
  | negInt _ _ h => exact ⟨_, _, h⟩
  | negFloat _ _ h => exact ⟨_, _, h⟩

theorem optValue_eq {name : String} {r1 r2 ts : List TT} {sp : Span} (hn : NameText name r1 ts)
    (he : Begins (.punct '=' sp) r2 r1) : optValue ts = r2 := by
  obtain ⟨-, sp1, sp2, r, h1, h2⟩ := hn
  simp only [optValue, entered_eq h1, entered_eq h2, entered_eq he]

theorem applyOpt_some {a a' : OptArgs} {o : Opt} (h : applyOpt a o.1 o.2 = some a') : o.valid := by
  by_contra hv
  rw [(applyOpt_eq a o).2 hv] at h
  cases h

theorem applyOpt_none {a : OptArgs} {o : Opt} (h : applyOpt a o.1 o.2 = none) : ¬ o.valid := by
  intro hv
  rw [(applyOpt_eq a o).1 hv] at h
  cases h

/-- The error about the option that `ts` begins with. -/
theorem optFault_shown {E : Type} {R : OptSpans E} {o : Opt} {os : List Opt} {r us ts : List TT} (hos : Options R.toOptReader os us ts)
    (hv : ∀ o ∈ os, o.valid) (ho : OneOpt R.toOptReader o r us) (hn : ¬ o.valid) :
    OptShown R ts (optFault o.1 o.2 us).1 (optFault o.1 o.2 us).2 := by
  have known : ∀ {name : String} {l : OptLit}, o = (name, some l) → name ∈ ["excerpt_line", "truncate_str", "padding"] →
      OptShown R ts .value (leftPlace (optValue us)) := by
    rintro name l rfl hk
    cases ho with
    | value sp h1 h2 h3 =>
      obtain ⟨t, r', hb⟩ := litText_begins h3
      rw [optValue_eq h1 h2, leftPlace_begins hb]
      exact .value sp hos hv hk h1 h2 h3 hn hb
  obtain ⟨name, v⟩ := o
  simp only [optFault]
  split
  · rename_i h1
    subst h1
    cases v with
    | none => exact .missing hos hv ho
    | some l => exact known rfl (by simp)
  · rename_i h1
    split
    · rename_i h2
      subst h2
      cases v with
      | none => exact absurd (.inr (.inl (by simp [Opt.trunc]))) hn
      | some l => exact known rfl (by simp)
    · rename_i h2
      split
      · rename_i h3
        subst h3
        cases v with
        | none => exact absurd (.inr (.inr (.inr (by simp [Opt.padding])))) hn
        | some l => exact known rfl (by simp)
      · rename_i h3
        refine .unknown hos hv ho ?_
        have h4 : name ≠ "show_line_num" := by
          rintro rfl
          exact hn (.inr (.inr (.inl (by simp [Opt.lineNum]))))
        simp [h1, h2, h3, h4]

theorem options_snoc {E : Type} {R : OptReader E} {os : List Opt} {us ts : List TT} (h : Options R os us ts) {o : Opt}
    {r : List TT} (ho : OneOpt R o r us) : Options R (os ++ [o]) (skipComma r) ts := by
  induction h with
  | nil ts =>
    by_cases hc : ∃ sp r', Begins (.punct ',' sp) r' r
    · obtain ⟨sp, r', hb⟩ := hc
      rw [skipComma_comma hb]
      exact .comma sp ho hb (.nil _)
    · rw [skipComma_other hc]
      exact .bare ho (fun sp r' hb => hc ⟨sp, r', hb⟩) (.nil _)
  | comma sp h1 h2 _ ih => exact .comma sp h1 h2 (ih ho)
  | bare h1 h2 _ ih => exact .bare h1 h2 (ih ho)

/-- The loop stops at the first option that is not allowed, or at the text of the expression. -/
theorem optLoopAt_spec {E : Type} {R : OptSpans E} : ∀ (n : Nat) {os : List Opt} {us ts : List TT} (a : OptArgs),
    (openedAll us).length ≤ n → Options R.toOptReader os us ts → (∀ o ∈ os, o.valid) →
    match optLoopAt R n a us with
    | .ok (a', r) => optLoop R.toOptReader n a us = some (a', r) ∧
        ∃ os' us', Options R.toOptReader os' us' ts ∧ (∀ o ∈ os', o.valid) ∧ OptPayload R.toOptReader r us'
    | .error (e, p) => optLoop R.toOptReader n a us = none ∧ OptShown R ts e p := by
  intro n
  induction n with
  | zero =>
    intro os us ts a hn hos hv
    refine ⟨rfl, os, us, hos, hv, .rest (fun sp r hb => ?_) fun o r ho => ?_⟩
    · have := enters_shorter hb
      omega
    · have := optText_shorter (oneOpt_iff.1 ho)
      omega
  | succ n ih =>
    intro os us ts a hn hos hv
    by_cases hs : ∃ sp r, Begins (.punct ';' sp) r us
    · obtain ⟨sp, r, hb⟩ := hs
      rw [optLoopAt, optLoop, entered_eq hb]
      exact ⟨rfl, os, us, hos, hv, .semi sp hb⟩
    · have e1 : optLoopAt R (n + 1) a us = match parseOpt R.toOptReader us with
          | none => .ok (a, us)
          | some ((name, val), r) =>
            match applyOpt a name val with
            | none => .error (optFault name val us)
            | some a => optLoopAt R n a (skipComma r) := by
        rw [optLoopAt]
        split
        · rename_i sp r he
          exact absurd ⟨sp, r, begins_iff.2 he⟩ hs
        · rfl
      have e2 : optLoop R.toOptReader (n + 1) a us = match parseOpt R.toOptReader us with
          | none => some (a, us)
          | some ((name, val), r) =>
            match applyOpt a name val with
            | none => none
            | some a => optLoop R.toOptReader n a (skipComma r) := by
        rw [optLoop]
        split
        · rename_i sp r he
          exact absurd ⟨sp, r, begins_iff.2 he⟩ hs
        · rfl
      rw [e1, e2]
      cases hp : parseOpt R.toOptReader us with
      | none =>
        refine ⟨rfl, os, us, hos, hv, .rest (fun sp r hb => hs ⟨sp, r, hb⟩) fun o r ho => ?_⟩
        rw [(parseOpt_iff _ _ _ _).2 (oneOpt_iff.1 ho)] at hp
        cases hp
      | some x =>
        obtain ⟨o, r⟩ := x
        have ht := (parseOpt_iff _ _ _ _).1 hp
        have ho := oneOpt_iff.2 ht
        cases ha : applyOpt a o.1 o.2 with
        | none =>
          simp only [ha]
          exact ⟨trivial, optFault_shown hos hv ho (applyOpt_none ha)⟩
        | some a' =>
          simp only [ha]
          have hlen := optText_shorter ht
          have hsk : (openedAll (skipComma r)).length ≤ (openedAll r).length := by
            by_cases hc : ∃ sp r', Begins (.punct ',' sp) r' r
            · obtain ⟨sp, r', hb⟩ := hc
              rw [skipComma_comma hb]
              exact (enters_shorter hb).le
            · rw [skipComma_other hc]
          refine ih a' (by omega) (options_snoc hos ho) fun o' ho' => ?_
          rcases List.mem_append.1 ho' with h | h
          · exact hv o' h
          · obtain rfl := List.mem_singleton.1 h
            exact applyOpt_some ha

theorem shown_of_error {E : Type} {R : OptSpans E} {ts : List TT} {e : OptErr} {p : ErrPlace}
    (h : argsPlaced R ts = .error (e, p)) : OptShown R ts e p := by
  have := optLoopAt_spec (R := R) _ {} le_rfl (.nil ts) (by simp)
  unfold argsPlaced at h
  split at h
  · rename_i x hx
    cases h
    rw [hx] at this
    exact this.2
  · rename_i a r hx
    rw [hx] at this
    obtain ⟨-, os, us, h1, h2, h3⟩ := this
    split at h
    · cases h
    · rename_i hn
      cases h
      exact .expr h1 h2 h3 hn

theorem argsPlaced_agrees {E : Type} (R : OptSpans E) (ts : List TT) :
    (∀ x, argsPlaced R ts = .ok x ↔ parseArgs R.toOptReader ts = some x) ∧
    ((∃ y, argsPlaced R ts = .error y) ↔ parseArgs R.toOptReader ts = none) := by
  have := optLoopAt_spec (R := R) _ {} le_rfl (.nil ts) (by simp)
  unfold argsPlaced parseArgs
  cases h : optLoopAt R (openedAll ts).length {} ts with
  | error y =>
    rw [h] at this
    simp [this.1]
  | ok y =>
    obtain ⟨a, r⟩ := y
    rw [h] at this
    simp only [this.1]
    cases R.expr r <;> simp

theorem optLoopAt_opt {E : Type} {R : OptSpans E} {o : Opt} {r us : List TT} (ho : OneOpt R.toOptReader o r us) (n : Nat)
    (a : OptArgs) : optLoopAt R (n + 1) a us = match applyOpt a o.1 o.2 with
      | none => .error (optFault o.1 o.2 us)
      | some a => optLoopAt R n a (skipComma r) := by
  have ht := oneOpt_iff.1 ho
  obtain ⟨sp, r', hb⟩ := ht.begins
  simp only [optLoopAt, entered_eq hb, (parseOpt_iff _ _ _ _).2 ht]
  split
  · rename_i h
    simp at h
  · rfl

/-- Allowed options are passed. -/
theorem optLoopAt_options {E : Type} {R : OptSpans E} {os : List Opt} {us ts : List TT} (h : Options R.toOptReader os us ts) :
    ∀ (n : Nat) (a : OptArgs), (openedAll ts).length ≤ n → (∀ o ∈ os, o.valid) →
    ∃ m a', (openedAll us).length ≤ m ∧ optLoopAt R n a ts = optLoopAt R m a' us := by
  induction h with
  | nil ts => exact fun n a hn _ => ⟨n, a, hn, rfl⟩
  | @comma o os r r' us ts sp h1 h2 _ ih =>
    intro n a hn hv
    have h3 := optText_shorter (oneOpt_iff.1 h1)
    have h4 := enters_shorter h2
    obtain ⟨n, rfl⟩ : ∃ m, n = m + 1 := ⟨n - 1, by omega⟩
    rw [optLoopAt_opt h1, (applyOpt_eq a o).1 (hv o (by simp)), skipComma_comma h2]
    exact ih n _ (by omega) fun o ho => hv o (by simp [ho])
  | @bare o os r us ts h1 h2 _ ih =>
    intro n a hn hv
    have h3 := optText_shorter (oneOpt_iff.1 h1)
    obtain ⟨n, rfl⟩ : ∃ m, n = m + 1 := ⟨n - 1, by omega⟩
    rw [optLoopAt_opt h1, (applyOpt_eq a o).1 (hv o (by simp)), skipComma_other (by rintro ⟨sp, r', hb⟩; exact h2 sp r' hb)]
    exact ih n _ (by omega) fun o ho => hv o (by simp [ho])

theorem error_of_option {E : Type} {R : OptSpans E} {o : Opt} {os : List Opt} {r us ts : List TT}
    (h : Options R.toOptReader os us ts) (hv : ∀ o ∈ os, o.valid) (ho : OneOpt R.toOptReader o r us) (hn : ¬ o.valid) :
    argsPlaced R ts = .error (optFault o.1 o.2 us) := by
  obtain ⟨m, a', hm, he⟩ := optLoopAt_options h _ {} le_rfl hv
  have := optText_shorter (oneOpt_iff.1 ho)
  obtain ⟨m, rfl⟩ : ∃ k, m = k + 1 := ⟨m - 1, by omega⟩
  rw [argsPlaced, he, optLoopAt_opt ho, (applyOpt_eq a' o).2 hn]

theorem optLoopAt_payload {E : Type} {R : OptSpans E} {payload us : List TT} (h : OptPayload R.toOptReader payload us) (n : Nat)
    (a : OptArgs) (hn : (openedAll us).length ≤ n) : optLoopAt R n a us = .ok (a, payload) := by
  cases h with
  | semi sp hb =>
    have := enters_shorter hb
    obtain ⟨n, rfl⟩ : ∃ m, n = m + 1 := ⟨n - 1, by omega⟩
    simp only [optLoopAt, entered_eq hb]
  | rest h1 h2 =>
    cases n with
    | zero => rfl
    | succ n =>
      rw [optLoopAt]
      split
      · rename_i sp r he
        exact absurd (begins_iff.2 he) (h1 sp r)
      · have : parseOpt R.toOptReader payload = none := by
          cases hp : parseOpt R.toOptReader payload with
          | none => rfl
          | some x => exact absurd (oneOpt_iff.2 ((parseOpt_iff _ _ _ _).1 hp)) (h2 _ _)
        rw [this]

/-- C92.  The error about the input of an excerpt macro, and where it is shown: a value that
is not allowed there, a name that is not known and a missing value at the whole call, and otherwise
where what stands behind the options is not an expression. -/
theorem C92_exact {E : Type} {R : OptSpans E} {ts : List TT} {e : OptErr} {p : ErrPlace} :
    argsPlaced R ts = .error (e, p) ↔ OptShown R ts e p := by
  refine ⟨shown_of_error, fun h => ?_⟩
  cases h with
  | @unknown name v os r us h1 h2 h3 h4 =>
    simp only [List.mem_cons, List.not_mem_nil, or_false, not_or] at h4
    have hn : ¬ Opt.valid (name, v) := by
      simp only [Opt.valid, Opt.lines, Opt.trunc, Opt.lineNum, Opt.padding, h4]
      split <;> simp
    rw [error_of_option h1 h2 h3 hn]
    simp [optFault, h4]
  | missing h1 h2 h3 =>
    have hn : ¬ Opt.valid ("excerpt_line", none) := by
      simp [Opt.valid, Opt.lines, Opt.trunc, Opt.lineNum, Opt.padding]
    rw [error_of_option h1 h2 h3 hn]
    rfl
  | @value name l os r r1 r2 r3 us t sp h1 h2 h3 h4 h5 h6 h7 h8 =>
    rw [error_of_option h1 h2 (.value sp h4 h5 h6) h7]
    have : leftPlace (optValue us) = .token t.span := by rw [optValue_eq h4 h5, leftPlace_begins h8]
    simp only [List.mem_cons, List.not_mem_nil, or_false] at h3
    rcases h3 with rfl | rfl | rfl <;> simp [optFault, this]
  | expr h1 h2 h3 h4 =>
    obtain ⟨m, a', hm, he⟩ := optLoopAt_options h1 _ {} le_rfl h2
    rw [argsPlaced, he, optLoopAt_payload h3 m a' hm]
    simp [h4]

/-- C92, one error.  There is one error and one place. -/
theorem C92_unique {E : Type} {R : OptSpans E} {ts : List TT} {e e' : OptErr} {p p' : ErrPlace}
    (h : OptShown R ts e p) (h' : OptShown R ts e' p') : e = e' ∧ p = p' := by
  have := (C92_exact.2 h).symm.trans (C92_exact.2 h')
  simpa using this

/-- C92, results.  Each macro gives what `C48` says, or an error. -/
theorem C92_results (ws : Char → Bool) (spell : List Char → List Char) (R : OptSpans PExpr) (ts : List TT) :
    (∀ e, helperMacro ws spell R .truncate ts = .expr e ↔ truncateMacro spell R.toOptReader ts = some e) ∧
    (∀ s, helperMacro ws spell R .pretty ts = .text s ↔ prettyMacro R.toOptReader ts = some s) ∧
    (∀ s, helperMacro ws spell R .oneLine ts = .text s ↔ oneLineMacro ws spell R.toOptReader ts = some s) ∧
    (∀ s, helperMacro ws spell R .excerpt ts = .text s ↔ excerptMacro spell R.toOptReader ts = some s) ∧
    ∀ k, match helperMacro ws spell R k ts with
      | .expr _ => k = .truncate
      | .text _ => k ≠ .truncate
      | .compileError _ _ => True := by
  obtain ⟨h1, h2⟩ := argsPlaced_agrees R ts
  simp only [helperMacro, truncateMacro, prettyMacro, oneLineMacro, excerptMacro]
  cases h : argsPlaced R ts with
  | error y =>
    rw [h2.1 ⟨y, h⟩]
    simp
  | ok y =>
    obtain ⟨a, x⟩ := y
    rw [(h1 _).1 h]
    simp only [Option.map_some, HelperOut.expr.injEq, Option.some.injEq, HelperOut.text.injEq, implies_true, true_and]
    constructor
    · cases excerpted spell a.excerpt x <;> simp
    · intro k
      cases k <;> simp
      cases excerpted spell a.excerpt x <;> simp

/-- C92, failure.  An input that is written as options and a payload is rejected exactly if an
option is not allowed or the payload is not an expression; `excerpted_pretty_stringify!` also rejects
the limit 0. -/
theorem C92_fails (ws : Char → Bool) (spell : List Char → List Char) (R : OptSpans PExpr) (k : Helper) {os : List Opt}
    {payload ts : List TT} (h : InputText R.toOptReader os payload ts) :
    (∃ e p, helperMacro ws spell R k ts = .compileError e p) ↔
      (∃ o ∈ os, ¬ o.valid) ∨ R.expr payload = none ∨ k = .excerpt ∧ lastOpt Opt.lines os = some 0 := by
  obtain ⟨h1, h2⟩ := argsPlaced_agrees R ts
  obtain ⟨c1, c2⟩ := C48_options R.toOptReader h
  have bad : parseArgs R.toOptReader ts = none → ∃ e p, helperMacro ws spell R k ts = .compileError e p := by
    intro hn
    obtain ⟨⟨e, p⟩, hy⟩ := h2.2 hn
    exact ⟨e, p, by simp only [helperMacro, hy]⟩
  by_cases hv : ∀ o ∈ os, o.valid
  · have hv' : ¬ ∃ o ∈ os, ¬ o.valid := by
      rintro ⟨o, ho, hn⟩
      exact hn (hv o ho)
    cases hx : R.expr payload with
    | none =>
      refine ⟨fun _ => .inr (.inl rfl), fun _ => bad ?_⟩
      rw [c1 hv, hx]
      rfl
    | some x =>
      have hp : argsPlaced R ts = .ok (meaning os, x) := by
        rw [h1, c1 hv, hx]
        rfl
      have hm : (meaning os).excerpt.maxLines = (lastOpt Opt.lines os).getD 5 := rfl
      have hl : excerpted spell (meaning os).excerpt x = none ↔ lastOpt Opt.lines os = some 0 := by
        simp only [excerpted, hm]
        cases lastOpt Opt.lines os with
        | none => simp
        | some n => cases n <;> simp
      simp only [helperMacro, hp, hv', reduceCtorEq, false_or]
      cases k <;> simp
      rw [← hl]
      cases excerpted spell (meaning os).excerpt x <;> simp
  · refine ⟨fun _ => .inl (by simpa using hv), fun _ => bad (c2 hv)⟩

/-- C92, options that are not used.  The input is checked before a macro looks at the options it
uses: an error, other than that about the limit 0, is the same for all four macros. -/
theorem C92_same {ws : Char → Bool} {spell : List Char → List Char} {R : OptSpans PExpr} {k : Helper} {ts : List TT}
    {e : OptErr} {p : ErrPlace} (h : helperMacro ws spell R k ts = .compileError e p) (hl : e ≠ .limit) (k' : Helper) :
    helperMacro ws spell R k' ts = .compileError e p := by
  cases hp : argsPlaced R ts with
  | error y =>
    obtain ⟨e', p'⟩ := y
    simp only [helperMacro, hp] at h ⊢
    exact h
  | ok y =>
    obtain ⟨a, x⟩ := y
    simp only [helperMacro, hp] at h
    exfalso
    cases k <;> simp at h
    split at h
    · cases h
    · cases h
      exact hl rfl

/-- C92, malformed options.  If nothing that begins with `@` is an expression, a malformed option is
reported at its `@`, wherever in the option the mistake is. -/
theorem C92_malformed {E : Type} {R : OptSpans E}
    (hx : ∀ sp r ts, Begins (.punct '@' sp) r ts → R.expr ts = none ∧ R.fault ts = cursorPlace ts) {os : List Opt}
    {us ts r : List TT} {sp : Span} (h : Options R.toOptReader os us ts) (hv : ∀ o ∈ os, o.valid)
    (hb : Begins (.punct '@' sp) r us) (hn : ∀ o r, ¬ OneOpt R.toOptReader o r us) :
    argsPlaced R ts = .error (.expr, cursorPlace us) := by
  rw [← (hx sp r us hb).2, C92_exact]
  refine .expr h hv (.rest (fun sp' r' hb' => ?_) hn) (hx sp r us hb).1
  have := (begins_unique hb hb').1
  simp at this

theorem within_lit {E : Type} {R : OptReader E} {l : OptLit} {t : TT} {r ts : List TT} (h : LitText R l r ts)
    (hw : Within t r) : Within t ts := by
  cases h with
  | lit _ h => exact within_rest h hw
  | bool _ _ h => exact within_rest h hw
  | negInt _ _ h h' => exact within_rest h (within_rest h' hw)
  | negFloat _ _ h h' => exact within_rest h (within_rest h' hw)

theorem within_optName {name : String} {t : TT} {r ts : List TT} (h : NameText name r ts) (hw : Within t r) : Within t ts := by
  obtain ⟨-, _, _, _, h1, h2⟩ := h
  exact within_rest h1 (within_rest h2 hw)

theorem within_options {E : Type} {R : OptReader E} {os : List Opt} {t : TT} {us ts : List TT} (h : Options R os us ts)
    (hw : Within t us) : Within t ts := by
  have one : ∀ {o r ts}, OneOpt R o r ts → Within t r → Within t ts := by
    intro o r ts h hw
    cases h with
    | flag hn _ => exact within_optName hn hw
    | value _ hn he hl => exact within_optName hn (within_rest he (within_lit hl hw))
  induction h with
  | nil => exact hw
  | comma _ h1 h2 _ ih => exact one h1 (within_rest h2 (ih hw))
  | bare h1 _ _ ih => exact one h1 (ih hw)

/-- C92, inside.  If errors of expressions are shown in them, the place is a token of the
input, or the whole call. -/
theorem C92_inside {E : Type} {R : OptSpans E}
    (hf : ∀ {r sp}, R.expr r = none → R.fault r = .token sp → ∃ t, Within t r ∧ sp = t.span) {ts : List TT} {e : OptErr}
    {sp : Span} (h : argsPlaced R ts = .error (e, .token sp)) : ∃ t, Within t ts ∧ sp = t.span := by
  have h := C92_exact.1 h
  generalize hp : ErrPlace.token sp = p at h
  cases h with
  | unknown => cases hp
  | missing => cases hp
  | value _ h1 _ _ h4 h5 _ _ h8 =>
    cases hp
    exact ⟨_, within_options h1 (within_optName h4 (within_rest h5 (within_begins h8))), rfl⟩
  | expr h1 _ h3 h4 =>
    obtain ⟨t, hw, hs⟩ := hf h4 hp.symm
    refine ⟨t, within_options h1 ?_, hs⟩
    cases h3 with
    | semi _ hb => exact within_rest hb hw
    | rest => exact hw

/-! ## Examples -/

namespace OptEx

/-- A reader that knows where it stops. -/
def spans : OptSpans Unit := { reader with fault := cursorPlace }

/-- A token of the third line. -/
def at3 (col : Nat) : Span := ⟨"", 3, col⟩

/-- `@excerpt_line = "4", x`: the error is shown at the value. -/
def badValue : List TT :=
  [.punct '@' (at3 0), .ident "excerpt_line" (at3 1), .punct '=' (at3 14), .lit (.str "4") (at3 16), .punct ',' (at3 19),
   .ident "x" (at3 21)]

example : argsPlaced spans badValue = .error (.value, .token (at3 16)) ∧ OptShown spans badValue .value (.token (at3 16)) :=
  ⟨rfl, C92_exact.1 rfl⟩

/-- `@padding, @max_len = 4, x`: the unknown option is not marked, only the whole call. -/
def unknownOpt : List TT :=
  [.punct '@' (at3 0), .ident "padding" (at3 1), .punct ',' (at3 8), .punct '@' (at3 10), .ident "max_len" (at3 11),
   .punct '=' (at3 19), .lit (.int 4) (at3 21), .punct ',' (at3 22), .ident "x" (at3 24)]

example : argsPlaced spans unknownOpt = .error (.unknown, .root) ∧ OptShown spans unknownOpt .unknown .root :=
  ⟨rfl, C92_exact.1 rfl⟩

/-- `@padding = top, x`: the mistake is at `top`, the error is shown at `@`. -/
def unquoted : List TT :=
  [.punct '@' (at3 0), .ident "padding" (at3 1), .punct '=' (at3 9), .ident "top" (at3 11), .punct ',' (at3 14),
   .ident "x" (at3 16)]

theorem spans_at (sp : Span) (r ts : List TT) (h : Begins (.punct '@' sp) r ts) :
    spans.expr ts = none ∧ spans.fault ts = cursorPlace ts := by
  refine ⟨?_, rfl⟩
  change reader.expr ts = none
  unfold reader
  simp only
  split
  · rename_i sp'
    have := (begins_unique h (begins_self (by simp) [])).1
    cases this
  · rfl

example : argsPlaced spans unquoted = .error (.expr, .token (at3 0)) := by
  refine C92_malformed spans_at (.nil _) (by simp) (begins_self (by simp) _) fun o r ho => ?_
  have := (parseOpt_iff _ _ _ _).2 (oneOpt_iff.1 ho)
  cases (show parseOpt reader unquoted = none from rfl).symm.trans this

/-- The same with an expression that can be shown. -/
def shownSpans : OptSpans PExpr where
  lit := reader.lit
  number := reader.number
  expr ts := (reader.expr ts).map fun _ => ⟨[], 3, 3⟩
  fault := cursorPlace

/-- `@excerpt_line = 0, x`. -/
def noLines : List TT :=
  [.punct '@' sp, .ident "excerpt_line" sp, .punct '=' sp, .lit (.int 0) sp, .punct ',' sp, .ident "x" sp]

theorem noLines_text : InputText shownSpans.toOptReader [("excerpt_line", some (.int (some 0)))] [.ident "x" sp] noLines :=
  .value sp sp (name _ (by decide +kernel) _) (.here (by simp)) (.lit (R := shownSpans.toOptReader) (x := .int 0) sp (.here (by simp)))
    (.here (by simp)) (.plain fun ⟨_, _, _, _, h⟩ => by have := entered_eq h; simp [enteredAll, TT.entered] at this)

/-- The limit 0 is rejected where it is used, and only there. -/
example (ws : Char → Bool) (spell : List Char → List Char) (k : Helper) :
    (∃ e p, helperMacro ws spell shownSpans k noLines = .compileError e p) ↔ k = .excerpt := by
  rw [C92_fails ws spell shownSpans k noLines_text]
  have : lastOpt Opt.lines [("excerpt_line", some (.int (some 0)))] = some 0 := rfl
  have hx : shownSpans.expr [.ident "x" sp] ≠ none := by simp [shownSpans, reader]
  simp [this, hx, Opt.valid, Opt.lines]

/-- `truncate_lit_str!` does not use `@excerpt_line`, but rejects a wrong value of it. -/
example (ws : Char → Bool) (spell : List Char → List Char) :
    helperMacro ws spell shownSpans .truncate badValue = .compileError .value (.token (at3 16)) :=
  C92_same (k := .excerpt) rfl (by simp) .truncate

end OptEx

end Hooq
