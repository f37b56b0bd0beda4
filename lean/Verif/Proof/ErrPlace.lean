import Verif.Props.InertText
import Verif.Props.FirstError
import Verif.Spec.ErrPlace

namespace Hooq

/-! ## Tokens in a text -/

theorem within_append {t : TT} : ∀ {g ts : List TT}, Within t (g ++ ts) ↔ Within t g ∨ Within t ts
  | [], ts => by
    constructor
    · exact .inr
    · rintro (h | h)
      · cases h
      · exact h
  | u :: g, ts => by
    have ih := within_append (t := t) (g := g) (ts := ts)
    constructor
    · intro h
      cases h with
      | here _ => exact .inl (.here _)
      | later _ h =>
        rcases ih.1 h with h | h
        · exact .inl (.later _ h)
        · exact .inr h
      | group d sp _ h => exact .inl (.group d sp _ h)
    · rintro (h | h)
      · cases h with
        | here _ => exact .here _
        | later _ h => exact .later _ (ih.2 (.inl h))
        | group d sp _ h => exact .group d sp _ h
      · exact .later _ (ih.2 (.inr h))

theorem within_enters {t : TT} {ts us : List TT} (h : Enters ts us) (hw : Within t us) : Within t ts := by
  induction h with
  | here _ => exact hw
  | inside sp _ ih =>
    rcases within_append.1 (ih hw) with h | h
    · exact .group _ sp _ h
    · exact .later _ h

theorem within_begins {t : TT} {r ts : List TT} (h : Begins t r ts) : Within t ts := within_enters h (.here _)

theorem within_rest {t u : TT} {r ts : List TT} (h : Begins t r ts) (hw : Within u r) : Within u ts :=
  within_enters h (.later _ hw)

theorem within_colons {u : TT} {r ts : List TT} (h : ColonsText r ts) (hw : Within u r) : Within u ts := by
  obtain ⟨_, _, r', h1, h2⟩ := h
  exact within_rest h1 (within_rest h2 hw)

theorem within_names {u : TT} {r ts : List TT} (h : Names r ts) (hw : Within u r) : Within u ts := by
  induction h with
  | one sp _ h => exact within_rest h hw
  | more sp _ h hc _ ih => exact within_rest h (within_colons hc (ih hw))

theorem within_name {u : TT} {r ts : List TT} (h : BoundName r ts) (hw : Within u r) : Within u ts := by
  rcases h with ⟨sp, h⟩ | h | ⟨ts', hc, h⟩
  · exact within_rest h hw
  · exact within_names h hw
  · exact within_colons hc (within_names h hw)

theorem within_passes {u : TT} {us r ts : List TT} (h : Passes us r ts) (hw : Within u r) : Within u ts := by
  induction h with
  | stop _ => exact hw
  | token hb _ ih => exact within_rest hb (ih hw)

theorem within_hooq {u : TT} {x : String} {r ts : List TT} (h : HooqText x r ts) (hw : Within u r) : Within u ts := by
  obtain ⟨_, _, _, _, h1, h2, h3⟩ := h
  exact within_rest h1 (within_colons h2 (within_rest h3 hw))

theorem within_list {u : TT} {x : String} {g ts : List TT} (h : HooqList x g ts) (hw : Within u g) : Within u ts := by
  obtain ⟨d, sp, r, h1, -, -⟩ := h
  exact within_hooq h1 (.group d sp r hw)

theorem FaultAt.within {ok : List TT → Prop} {ts : List TT} {sp : Span} (h : FaultAt ok ts (.token sp)) :
    ∃ t, Within t ts ∧ sp = t.span := by
  cases h with
  | token hp => exact ⟨_, within_passes hp (.here _), rfl⟩
  | rest hp => exact ⟨_, within_passes hp (.here _), rfl⟩

/-! ## Reading on -/

theorem enters_plain {t : TT} {r ts : List TT} (h : Begins t r ts) : ∀ g sp, t ≠ .group .none g sp := by
  unfold Begins at h
  generalize hu : t :: r = us at h
  induction h with
  | here ht => obtain ⟨rfl, rfl⟩ := List.cons.inj hu; exact ht
  | inside _ _ ih => exact ih hu

theorem begins_self {t : TT} (h : ∀ g sp, t ≠ .group .none g sp) (r : List TT) : Begins t r (t :: r) := .here h

theorem passes_append {us us' r r' ts : List TT} (h : Passes us r ts) (h' : Passes us' r' r) :
    Passes (us ++ us') r' ts := by
  induction h with
  | stop _ => exact h'
  | token hb _ ih => exact .token hb (ih h')

theorem passes_begins {t : TT} {r ts : List TT} (h : Begins t r ts) : Passes [t] r ts := .token h (.stop _)

theorem passes_colons {r ts : List TT} (h : ColonsText r ts) :
    ∃ us, Passes us r ts ∧ ∀ q, ColonsText q (us ++ q) := by
  obtain ⟨sp1, sp2, r', h1, h2⟩ := h
  exact ⟨[.punct ':' sp1, .punct ':' sp2], passes_append (passes_begins h1) (passes_begins h2),
    fun q => ⟨sp1, sp2, .punct ':' sp2 :: q, begins_self (by simp) _, begins_self (by simp) _⟩⟩

theorem passes_names {r ts : List TT} (h : Names r ts) : ∃ us, Passes us r ts ∧ ∀ q, Names q (us ++ q) := by
  induction h with
  | one sp hx h => exact ⟨_, passes_begins h, fun q => .one sp hx (.here (by simp))⟩
  | more sp hx h hc _ ih =>
    obtain ⟨us, h1, h2⟩ := ih
    obtain ⟨cs, h3, h4⟩ := passes_colons hc
    refine ⟨_ ++ (cs ++ us), passes_append (passes_begins h) (passes_append h3 h1), fun q => ?_⟩
    rw [List.append_assoc, List.append_assoc]
    exact .more sp hx (.here (by simp)) (h4 _) (h2 q)

theorem enters_or_blank (ts : List TT) : Blank ts ∨ ∃ t r, Begins t r ts := by
  cases h : enteredAll ts with
  | none => exact .inl (blank_iff.2 (by simp [h]))
  | some us =>
    have he := (enters_iff ts us).2 h
    cases us with
    | nil =>
      exfalso
      generalize hu : ([] : List TT) = us at he
      induction he with
      | here _ => cases hu
      | inside _ he ih => exact ih ((enters_iff _ _).1 (hu ▸ he)) hu
    | cons t r => exact .inr ⟨t, r, he⟩

theorem faultAt_cursor {ok : List TT → Prop} {ts us r : List TT} (hp : Passes us r ts) (hv : ∃ more, ok (us ++ more))
    (hb : ∀ b r', Begins b r' r → ∀ more, ¬ ok (us ++ b :: more)) : FaultAt ok ts (cursorPlace r) := by
  cases r with
  | nil => exact .ending hp hv
  | cons t r =>
    rcases enters_or_blank (t :: r) with h | ⟨b, r', h⟩
    · exact .rest hp hv h
    · exact .token hp hv h (hb b r' h)

theorem leftPlace_begins {t : TT} {r ts : List TT} (h : Begins t r ts) : leftPlace ts = .token t.span := by
  simp [leftPlace, begins_iff.1 h]

theorem faultAt_prefix {ok : List TT → Prop} {ts ps r : List TT} {p : ErrPlace} (hp : Passes ps r ts)
    (hq : ∀ q, ok (ps ++ q) ↔ ok q) (h : FaultAt ok r p) : FaultAt ok ts p := by
  have hv : ∀ {us}, (∃ more, ok (us ++ more)) → ∃ more, ok (ps ++ us ++ more) := by
    rintro us ⟨more, h⟩
    exact ⟨more, by rw [List.append_assoc]; exact (hq _).2 h⟩
  cases h with
  | token h1 h2 h3 h4 =>
    refine .token (passes_append hp h1) (hv h2) h3 fun more h => h4 more ?_
    rw [List.append_assoc] at h
    exact (hq _).1 h
  | rest h1 h2 h3 => exact .rest (passes_append hp h1) (hv h2) h3
  | ending h1 h2 => exact .ending (passes_append hp h1) (hv h2)

/-! ## Strings -/

theorem unwraps_cons {strict : Bool} {t : TT} (ht : ∀ g sp, t ≠ .group .none g sp) {r us : List TT} :
    Unwraps strict (t :: r) us ↔ ∃ us', us = t :: us' ∧ Unwraps strict r us' := by
  constructor
  · intro h
    cases h with
    | token _ h => exact ⟨_, rfl, h⟩
    | inside sp _ _ => exact absurd rfl (ht _ sp)
    | empty sp _ _ => exact absurd rfl (ht _ sp)
  · rintro ⟨us', rfl, h⟩
    exact .token ht h

theorem unwraps_begins {strict : Bool} {t : TT} {r ts us : List TT} (h : Begins t r ts) :
    Unwraps strict ts us ↔ Unwraps strict (t :: r) us := by
  unfold Begins at h
  generalize hu : t :: r = ws at h
  induction h with
  | here _ => exact Iff.rfl
  | @inside g ts ws sp he ih =>
    rw [← ih hu]
    subst hu
    constructor
    · intro h
      cases h with
      | token ht _ => exact absurd rfl (ht _ sp)
      | inside _ _ h => exact h
      | empty _ h _ => exact h
    · intro h
      cases g with
      | nil =>
        refine .empty sp h ?_
        rintro - rfl
        have := (ih rfl).1 h
        rw [unwraps_cons (enters_plain he)] at this
        obtain ⟨_, h1, -⟩ := this
        cases h1
      | cons u g => exact .inside sp (by simp) h

/-- A text as `Strings::parse` wants it. -/
def StringsOk (ts : List TT) : Prop := ∃ l, StringsText l ts

theorem stringsOk_begins {t : TT} {r ts : List TT} (h : Begins t r ts) : StringsOk ts ↔ StringsOk (t :: r) := by
  simp only [StringsOk, StringsText, unwraps_begins h]

theorem stringsOk_one (s : String) (sp : Span) : StringsOk [.lit (.str s) sp] :=
  ⟨[s], _, .token (by simp) .nil, .one s sp⟩

theorem stringsOk_cons {s : String} {sp sp' : Span} {q : List TT} :
    StringsOk ([.lit (.str s) sp, .punct ',' sp'] ++ q) ↔ StringsOk q := by
  simp only [StringsOk, StringsText, List.cons_append, List.nil_append]
  constructor
  · rintro ⟨l, us, h1, h2⟩
    obtain ⟨us', rfl, h3⟩ := (unwraps_cons (by simp)).1 h1
    obtain ⟨us, rfl, h4⟩ := (unwraps_cons (by simp)).1 h3
    cases h2 with
    | cons _ _ _ h2 => exact ⟨_, _, h4, h2⟩
  · rintro ⟨l, us, h1, h2⟩
    exact ⟨_, _, .token (by simp) (.token (by simp) h1), .cons s sp sp' h2⟩

theorem stringsOk_head {t : TT} (ht : ∀ g sp, t ≠ .group .none g sp) {r : List TT} (h : StringsOk (t :: r)) :
    ∃ s sp, t = .lit (.str s) sp := by
  obtain ⟨l, us, h1, h2⟩ := h
  obtain ⟨us', rfl, -⟩ := (unwraps_cons ht).1 h1
  cases h2 with
  | one s sp => exact ⟨s, sp, rfl⟩
  | cons s sp _ _ => exact ⟨s, sp, rfl⟩

theorem stringsOk_second {t u : TT} (ht : ∀ g sp, t ≠ .group .none g sp) (hu : ∀ g sp, u ≠ .group .none g sp)
    {r : List TT} (h : StringsOk (t :: u :: r)) : ∃ sp, u = .punct ',' sp := by
  obtain ⟨l, us, h1, h2⟩ := h
  obtain ⟨us', rfl, h3⟩ := (unwraps_cons ht).1 h1
  obtain ⟨us'', rfl, -⟩ := (unwraps_cons hu).1 h3
  cases h2 with
  | cons _ _ sp' _ => exact ⟨sp', rfl⟩

theorem begins_unique {t t' : TT} {r r' ts : List TT} (h : Begins t r ts) (h' : Begins t' r' ts) : t = t' ∧ r = r' := by
  rw [begins_iff] at h h'
  rw [h] at h'
  simpa using h'

theorem strings_fault : ∀ (n : Nat) {ts : List TT}, (openedAll ts).length ≤ n → ¬ StringsOk ts →
    stringsRest n ts ≠ [] ∧ FaultAt StringsOk ts (cursorPlace (stringsRest n ts)) := by
  have first : ∀ {ts : List TT}, ¬ StringsOk ts → (∀ s sp r, ¬ Begins (.lit (.str s) sp) r ts) →
      ts ≠ [] ∧ FaultAt StringsOk ts (cursorPlace ts) := by
    intro ts h hl
    refine ⟨fun he => h (he ▸ ⟨[], [], .nil, .nil⟩), faultAt_cursor (.stop ts) ⟨[], [], [], .nil, .nil⟩ ?_⟩
    intro b r' hb more hok
    obtain ⟨s, sp, rfl⟩ := stringsOk_head (enters_plain hb) hok
    exact hl s sp r' hb
  intro n
  induction n with
  | zero =>
    intro ts hn h
    rw [stringsRest]
    refine first h fun s sp r hb => ?_
    have := enters_shorter hb
    omega
  | succ n ih =>
    intro ts hn h
    rw [stringsRest]
    split
    · rename_i s sp r he
      have hb := begins_iff.2 he
      have h1 : ¬ StringsOk (.lit (.str s) sp :: r) := by rwa [← stringsOk_begins hb]
      split
      · rename_i sp' r' he'
        have hb' := begins_iff.2 he'
        have hp := passes_append (passes_begins hb) (passes_begins hb')
        have h2 : ¬ StringsOk r' := by
          rintro ⟨l, us, h3, h4⟩
          refine h1 ⟨s :: l, _, .token (by simp) ((unwraps_begins hb').2 (.token (by simp) h3)), .cons s sp sp' h4⟩
        have := ih (by have := enters_shorter hb; have := enters_shorter hb'; omega) h2
        exact ⟨this.1, faultAt_prefix hp (fun q => stringsOk_cons) this.2⟩
      · rename_i hc
        refine ⟨?_, faultAt_cursor (passes_begins hb) ⟨[], stringsOk_one s sp⟩ ?_⟩
        · rintro rfl
          exact h1 (stringsOk_one s sp)
        · intro b r' hb' more hok
          obtain ⟨sp', rfl⟩ := stringsOk_second (by simp) (enters_plain hb') hok
          exact hc sp' r' (begins_iff.1 hb')
    · rename_i hc
      exact first h fun s sp r hb => hc s sp r (begins_iff.1 hb)

theorem strings_place {ts : List TT} (h : ¬ StringsOk ts) :
    stringsPlace ts ≠ .root ∧ FaultAt StringsOk ts (stringsPlace ts) := by
  obtain ⟨h1, h2⟩ := strings_fault _ le_rfl h
  refine ⟨?_, h2⟩
  unfold stringsPlace
  cases hr : stringsRest (openedAll ts).length ts with
  | nil => exact absurd hr h1
  | cons t r => simp [cursorPlace]

/-! ## `true` and `false` -/

/-- A text as `LitBool::parse` wants it. -/
def BoolOk (ts : List TT) : Prop := WordText "true" ts ∨ WordText "false" ts

theorem boolOk_iff {ts : List TT} : BoolOk ts ↔ ∃ x sp r, (x = "true" ∨ x = "false") ∧ Begins (.ident x sp) r ts ∧ Blank r := by
  have blank : ∀ {r : List TT}, Unwraps false r [] ↔ Blank r := by
    intro r
    constructor
    · intro h
      rcases enters_or_blank r with hb | ⟨t, r', hb⟩
      · exact hb
      · rw [unwraps_begins hb, unwraps_cons (enters_plain hb)] at h
        obtain ⟨_, h, -⟩ := h
        cases h
    · intro hb
      rw [unwraps_iff]
      refine ⟨?_, by simp⟩
      have hu : Unwraps false r (visible r) := (unwraps_iff _ _ _).2 ⟨rfl, by simp⟩
      generalize visible r = ws at hu
      induction hu with
      | nil => rfl
      | token ht _ _ => exact absurd (.here ht) (hb _)
      | inside sp _ _ ih => exact ih fun _ h => hb _ (.inside sp h)
      | empty sp _ _ ih => exact ih fun _ h => hb _ (.inside sp h)
  have word : ∀ {x : String}, WordText x ts ↔ ∃ sp r, Begins (.ident x sp) r ts ∧ Blank r := by
    intro x
    constructor
    · rintro ⟨sp, h⟩
      rcases enters_or_blank ts with hb | ⟨t, r', hb⟩
      · rw [← blank, unwraps_iff] at hb
        rw [unwraps_iff, hb.1] at h
        simp at h
      · rw [unwraps_begins hb, unwraps_cons (enters_plain hb)] at h
        obtain ⟨_, h1, h2⟩ := h
        obtain ⟨rfl, rfl⟩ := List.cons.inj h1
        exact ⟨sp, r', hb, blank.1 h2⟩
    · rintro ⟨sp, r, h1, h2⟩
      exact ⟨sp, (unwraps_begins h1).2 (.token (by simp) (blank.2 h2))⟩
  simp only [BoolOk, word]
  constructor
  · rintro (⟨sp, r, h⟩ | ⟨sp, r, h⟩)
    · exact ⟨_, sp, r, .inl rfl, h⟩
    · exact ⟨_, sp, r, .inr rfl, h⟩
  · rintro ⟨x, sp, r, rfl | rfl, h⟩
    · exact .inl ⟨sp, r, h⟩
    · exact .inr ⟨sp, r, h⟩

theorem blank_nil : Blank [] := fun us h => by cases h

theorem bool_place {ts : List TT} (h : ¬ BoolOk ts) :
    ((∀ x sp r, x = "true" ∨ x = "false" → ¬ Begins (.ident x sp) r ts) ∧ FaultAt BoolOk ts (boolPlace ts) ∨
      ∃ x sp r t r', (x = "true" ∨ x = "false") ∧ Begins (.ident x sp) r ts ∧ Begins t r' r ∧ boolPlace ts = .token t.span) ∧
    (boolPlace ts = .root ↔ ts = []) := by
  have first : (∀ x sp r, x = "true" ∨ x = "false" → ¬ Begins (.ident x sp) r ts) →
      FaultAt BoolOk ts (cursorPlace ts) ∧ (cursorPlace ts = .root ↔ ts = []) := by
    intro hx
    refine ⟨faultAt_cursor (.stop ts) ⟨[.ident "true" .callSite], ?_⟩ ?_, by cases ts <;> simp [cursorPlace]⟩
    · exact boolOk_iff.2 ⟨_, _, _, .inl rfl, begins_self (by simp) _, blank_nil⟩
    · intro b r hb more hok
      obtain ⟨x, sp, r', h1, h2, -⟩ := boolOk_iff.1 hok
      obtain ⟨rfl, -⟩ := begins_unique h2 (begins_self (enters_plain hb) _)
      exact hx x sp r h1 hb
  unfold boolPlace
  split
  · rename_i x sp r he
    have hb := begins_iff.2 he
    split
    · rename_i hx
      rcases enters_or_blank r with hr | ⟨t, r', hr⟩
      · exact absurd (boolOk_iff.2 ⟨x, sp, r, hx, hb, hr⟩) h
      · refine ⟨.inr ⟨x, sp, r, t, r', hx, hb, hr, leftPlace_begins hr⟩, ?_⟩
        simp only [leftPlace_begins hr, reduceCtorEq, false_iff]
        rintro rfl
        cases hb
    · rename_i hx
      have hno : ∀ x' sp r, x' = "true" ∨ x' = "false" → ¬ Begins (.ident x' sp) r ts := by
        intro x' sp' r' h' hb'
        obtain ⟨h1, -⟩ := begins_unique hb' hb
        cases h1
        exact hx h'
      exact ⟨.inl ⟨hno, (first hno).1⟩, (first hno).2⟩
  · rename_i hc
    have hno : ∀ x' sp r, x' = "true" ∨ x' = "false" → ¬ Begins (.ident x' sp) r ts :=
      fun x sp r _ hb => hc x sp r (begins_iff.1 hb)
    exact ⟨.inl ⟨hno, (first hno).1⟩, (first hno).2⟩

/-! ## Bindings -/

theorem names_modLoop {r ts : List TT} (h : Names r ts) (hr : colons r = none) :
    ∀ n, (openedAll ts).length ≤ n → ∃ l, modLoop n ts = some (l, r) := by
  induction h with
  | one sp hx h => exact fun n hn => ⟨_, modLoop_word hx h hr hn⟩
  | more sp hx h hc _ ih =>
    intro n hn
    have h1 := enters_shorter h
    have h2 := colons_shorter (colons_iff.1 hc)
    obtain ⟨n, rfl⟩ : ∃ m, n = m + 1 := ⟨n - 1, by omega⟩
    obtain ⟨l, hl⟩ := ih hr n (by omega)
    exact ⟨_, by simp [modLoop, begins_iff.1 h, plainWord_iff.2 hx, colons_iff.1 hc, hl]; rfl⟩

theorem modLoop_names : ∀ (n : Nat) {ts : List TT} {l : List String} {r : List TT}, modLoop n ts = some (l, r) →
    Names r ts ∧ colons r = none := by
  intro n
  induction n with
  | zero => intro ts l r h; cases h
  | succ n ih =>
    intro ts l r h
    rw [modLoop] at h
    split at h
    · rename_i x sp r1 he
      split at h
      · rename_i hx
        split at h
        · rename_i r2 hc
          obtain ⟨⟨l', r'⟩, h1, h2⟩ := Option.map_eq_some_iff.1 h
          simp only [Prod.mk.injEq] at h2
          obtain ⟨-, rfl⟩ := h2
          obtain ⟨h3, h4⟩ := ih h1
          exact ⟨.more sp (plainWord_iff.1 hx) (begins_iff.2 he) (colons_iff.2 hc) h3, h4⟩
        · rename_i hc
          simp only [Option.some.injEq, Prod.mk.injEq] at h
          obtain ⟨-, rfl⟩ := h
          exact ⟨.one sp (plainWord_iff.1 hx) (begins_iff.2 he), hc⟩
      · cases h
    · cases h

theorem names_head {r ts : List TT} (h : Names r ts) : ∃ x sp r', PlainWord x ∧ Begins (.ident x sp) r' ts := by
  cases h with
  | one sp hx h => exact ⟨_, sp, _, hx, h⟩
  | more sp hx h _ _ => exact ⟨_, sp, _, hx, h⟩

theorem unsafe_notPlain : ¬ PlainWord "unsafe" := by unfold PlainWord; decide +kernel

theorem names_metaPath {r ts : List TT} (h : Names r ts) (hr : colons r = none) : ∃ p, metaPath ts = some (p, r) := by
  obtain ⟨x, sp, r', hx, hb⟩ := names_head h
  obtain ⟨l, hl⟩ := names_modLoop h hr _ le_rfl
  rw [metaPath_other (begins_iff.1 hb) (fun hu => unsafe_notPlain (hu ▸ hx)), modSegments, hl]
  exact ⟨_, rfl⟩

theorem rooted_metaPath {r ts' ts : List TT} (hc : ColonsText ts' ts) (h : Names r ts') (hr : colons r = none) :
    ∃ p, metaPath ts = some (p, r) := by
  obtain ⟨l, hl⟩ := names_modLoop h hr _ le_rfl
  rw [metaPath_colons (colons_iff.1 hc), modSegments, hl]
  exact ⟨_, rfl⟩

theorem unsafe_metaPath {sp : Span} {r ts : List TT} (h : Begins (.ident "unsafe" sp) r ts) :
    metaPath ts = some (.ofIdents ["unsafe"], r) := by
  simp [metaPath, begins_iff.1 h]

theorem name_metaPath {r ts : List TT} (h : BoundName r ts) (hr : colons r = none) : ∃ p, metaPath ts = some (p, r) := by
  rcases h with ⟨sp, h⟩ | h | ⟨ts', hc, h⟩
  · exact ⟨_, unsafe_metaPath h⟩
  · exact names_metaPath h hr
  · exact rooted_metaPath hc h hr

theorem metaPath_name {r ts : List TT} {p : Path} (h : metaPath ts = some (p, r)) :
    (∃ sp, Begins (.ident "unsafe" sp) r ts) ∨ ((Names r ts ∨ ∃ ts', ColonsText ts' ts ∧ Names r ts') ∧ colons r = none) := by
  unfold metaPath at h
  split at h
  · rename_i sp r' he
    simp only [Option.some.injEq, Prod.mk.injEq] at h
    obtain ⟨-, rfl⟩ := h
    exact .inl ⟨sp, begins_iff.2 he⟩
  · split at h
    · rename_i r' hc
      obtain ⟨⟨l, r''⟩, h1, h2⟩ := Option.map_eq_some_iff.1 h
      simp only [Prod.mk.injEq] at h2
      obtain ⟨-, rfl⟩ := h2
      obtain ⟨h3, h4⟩ := modLoop_names _ h1
      exact .inr ⟨.inr ⟨r', colons_iff.2 hc, h3⟩, h4⟩
    · obtain ⟨⟨l, r''⟩, h1, h2⟩ := Option.map_eq_some_iff.1 h
      simp only [Prod.mk.injEq] at h2
      obtain ⟨-, rfl⟩ := h2
      obtain ⟨h3, h4⟩ := modLoop_names _ h1
      exact .inr ⟨.inl h3, h4⟩

theorem metaPath_nameText {r ts : List TT} {p : Path} (h : metaPath ts = some (p, r)) : BoundName r ts := by
  rcases metaPath_name h with h | ⟨h, -⟩
  · exact .inl h
  · exact .inr h

theorem eq_noColons {sp : Span} {r r' : List TT} (h : Begins (.punct '=' sp) r' r) : colons r = none := by
  simp [colons, begins_iff.1 h]

theorem bindingText_iff {value : List TT → Option (Value × List TT)} {ts : List TT} :
    BindingText value ts ↔ (nameValue value ts).isSome = true := by
  constructor
  · rintro ⟨r, v, hn, sp, r', hb, r1, hv, hr⟩
    obtain ⟨p, hp⟩ := name_metaPath hn (eq_noColons hb)
    simp [nameValue, hp, begins_iff.1 hb, hv, blank_entered hr]
  · intro h
    obtain ⟨⟨p, v⟩, h⟩ := Option.isSome_iff_exists.1 h
    unfold nameValue at h
    split at h
    · rename_i hp
      split at h
      · rename_i sp r' hr
        split at h
        · rename_i v' rest hv
          split at h
          · rename_i hb
            exact ⟨_, v', metaPath_nameText hp, sp, r', begins_iff.2 hr, rest, hv, blank_iff.2 hb⟩
          · cases h
        · cases h
      · cases h
    · cases h

theorem modLoop_other {ts : List TT} (h : ∀ x sp r, PlainWord x → ¬ Begins (.ident x sp) r ts) (n : Nat) :
    modLoop n ts = none := by
  cases n with
  | zero => rfl
  | succ n =>
    rw [modLoop]
    split
    · rename_i x sp r he
      rw [if_neg fun hx => h x sp r (plainWord_iff.1 hx) (begins_iff.2 he)]
    · rfl

theorem modRest_other {ts : List TT} (h : ∀ x sp r, PlainWord x → ¬ Begins (.ident x sp) r ts) (n : Nat) :
    modRest n ts = ts := by
  cases n with
  | zero => rfl
  | succ n =>
    rw [modRest]
    split
    · rename_i x sp r he
      rw [if_neg fun hx => h x sp r (plainWord_iff.1 hx) (begins_iff.2 he)]
    · rfl

/-- A path cannot be read if what follows a `::` is no word. -/
theorem names_stuck {r1 r ts : List TT} (h : Names r1 ts) (hc : ColonsText r r1)
    (hr : ∀ x sp r', PlainWord x → ¬ Begins (.ident x sp) r' r) : ∀ n, (openedAll ts).length ≤ n →
    modLoop n ts = none ∧ modRest n ts = r := by
  have step : ∀ {x : String} {sp : Span} {r1 r2 ts : List TT} {n : Nat}, PlainWord x → Begins (.ident x sp) r1 ts →
      ColonsText r2 r1 → (openedAll ts).length ≤ n → ∃ m, (openedAll r2).length ≤ m ∧
        modLoop n ts = (modLoop m r2).map (fun p => (x :: p.1, p.2)) ∧ modRest n ts = modRest m r2 := by
    intro x sp r1 r2 ts n hx h hc hn
    have h1 := enters_shorter h
    have h2 := colons_shorter (colons_iff.1 hc)
    obtain ⟨n, rfl⟩ : ∃ m, n = m + 1 := ⟨n - 1, by omega⟩
    exact ⟨n, by omega, by simp [modLoop, begins_iff.1 h, plainWord_iff.2 hx, colons_iff.1 hc],
      by simp [modRest, begins_iff.1 h, plainWord_iff.2 hx, colons_iff.1 hc]⟩
  induction h with
  | one sp hx h =>
    intro n hn
    obtain ⟨m, -, h1, h2⟩ := step hx h hc hn
    rw [h1, h2, modLoop_other hr, modRest_other hr]
    exact ⟨rfl, rfl⟩
  | more sp hx h hc' _ ih =>
    intro n hn
    obtain ⟨m, hm, h1, h2⟩ := step hx h hc' hn
    obtain ⟨h3, h4⟩ := ih hc m hm
    rw [h1, h2, h3, h4]
    exact ⟨rfl, rfl⟩

theorem modRest_names : ∀ (n : Nat) {ts : List TT}, (openedAll ts).length ≤ n → modLoop n ts = none →
    (modRest n ts = ts ∨ ∃ r1, Names r1 ts ∧ ColonsText (modRest n ts) r1) ∧
      ∀ x sp r', PlainWord x → ¬ Begins (.ident x sp) r' (modRest n ts) := by
  intro n
  induction n with
  | zero =>
    intro ts hn _
    rw [modRest]
    refine ⟨.inl rfl, fun x sp r' _ hb => ?_⟩
    have := enters_shorter hb
    omega
  | succ n ih =>
    intro ts hn h
    rw [modRest]
    rw [modLoop] at h
    cases he : enteredAll ts with
    | none => exact ⟨.inl rfl, fun x sp r' _ hb => by rw [begins_iff, he] at hb; cases hb⟩
    | some us =>
      rw [he] at h
      have other : (∀ x sp r', PlainWord x → us ≠ .ident x sp :: r') →
          ∀ x sp r', PlainWord x → ¬ Begins (.ident x sp) r' ts := by
        intro ho x sp r' hx hb
        rw [begins_iff, he] at hb
        exact ho x sp r' hx (Option.some.inj hb)
      split
      · rename_i x sp r hu
        obtain rfl := Option.some.inj hu
        simp only at h
        split at h
        · rename_i hx
          rw [if_pos hx]
          split at h
          · rename_i r2 hc
            have hc' := colons_iff.2 hc
            have h1 := enters_shorter (begins_iff.2 he)
            have h2 := colons_shorter hc
            obtain ⟨h3, h4⟩ := ih (by omega) (Option.map_eq_none_iff.1 h)
            simp only [hc]
            refine ⟨.inr ?_, h4⟩
            rcases h3 with h3 | ⟨r1, h3, h5⟩
            · exact ⟨r, .one sp (plainWord_iff.1 hx) (begins_iff.2 he), h3.symm ▸ hc'⟩
            · exact ⟨r1, .more sp (plainWord_iff.1 hx) (begins_iff.2 he) hc' h3, h5⟩
          · cases h
        · rename_i hx
          rw [if_neg hx]
          refine ⟨.inl rfl, other fun x' sp' r' hx' hu => ?_⟩
          obtain ⟨h1, -⟩ := List.cons.inj hu
          cases h1
          exact hx (plainWord_iff.2 hx')
      · rename_i hu
        exact ⟨.inl rfl, other fun x sp r' _ h' => hu x sp r' (congrArg some h')⟩

theorem names_more {r1 r2 r ts : List TT} (h : Names r1 ts) (hc : ColonsText r2 r1) (h' : Names r r2) : Names r ts := by
  induction h with
  | one sp hx h => exact .more sp hx h hc h'
  | more sp hx h hc' _ ih => exact .more sp hx h hc' (ih hc)

theorem nameText_viable {R : ErrReader} (hR : R.Sound) {us : List TT} (h : ∀ q, BoundName q (us ++ q)) :
    ∃ more, BindingText R.value (us ++ more) := by
  obtain ⟨r, v, hr⟩ := hR.reads
  exact ⟨.punct '=' .callSite :: r, _, v, h _, .callSite, r, begins_self (by simp) _, [], hr, blank_nil⟩

theorem plain_x : PlainWord "x" := by unfold PlainWord; decide +kernel

theorem starts_viable {R : ErrReader} (hR : R.Sound) {us : List TT}
    (h : ∀ q, Names q (.ident "x" .callSite :: q) → BoundName q (us ++ .ident "x" .callSite :: q)) :
    ∃ more, BindingText R.value (us ++ more) := by
  obtain ⟨more, hm⟩ := nameText_viable hR (us := us ++ [.ident "x" .callSite]) fun q => by
    rw [List.append_assoc]
    exact h q (.one .callSite plain_x (begins_self (by simp) _))
  rw [List.append_assoc] at hm
  exact ⟨_, hm⟩

theorem not_binding_none {value : List TT → Option (Value × List TT)} {ts : List TT} (h : metaPath ts = none) :
    ¬ BindingText value ts := by
  rw [bindingText_iff]
  simp [nameValue, h]

theorem not_binding_eq {value : List TT → Option (Value × List TT)} {b : TT} {p : Path} {more ts : List TT}
    (hb : ∀ g sp, b ≠ .group .none g sp) (he : ∀ sp, b ≠ .punct '=' sp) (h : metaPath ts = some (p, b :: more)) :
    ¬ BindingText value ts := by
  rw [bindingText_iff]
  unfold nameValue
  rw [h]
  simp only [begins_iff.1 (begins_self hb more)]
  split
  · rename_i sp r' hr
    simp only [Option.some.injEq, List.cons.injEq] at hr
    exact absurd hr.1 (he sp)
  · simp

theorem colons_plain {b : TT} (hb : ∀ g sp, b ≠ .group .none g sp) (hc : ∀ sp, b ≠ .punct ':' sp) (more : List TT) :
    colons (b :: more) = none := by
  cases h : colons (b :: more) with
  | none => rfl
  | some r =>
    obtain ⟨sp1, sp2, r', h1, -⟩ := colons_iff.2 h
    obtain ⟨rfl, -⟩ := begins_unique h1 (begins_self hb more)
    exact absurd rfl (hc sp1)

/-- No word at the beginning, so no path. -/
theorem modSegments_plain {b : TT} (hb : ∀ g sp, b ≠ .group .none g sp) (hx : ∀ x sp, PlainWord x → b ≠ .ident x sp)
    (more : List TT) : ∀ x sp r, PlainWord x → ¬ Begins (.ident x sp) r (b :: more) := by
  intro x sp r h h'
  obtain ⟨rfl, -⟩ := begins_unique h' (begins_self hb more)
  exact hx x sp h rfl

theorem metaPath_stuck {r1 r ts : List TT} (h : Names r1 ts) (hc : ColonsText r r1)
    (hr : ∀ x sp r', PlainWord x → ¬ Begins (.ident x sp) r' r) : metaPath ts = none := by
  obtain ⟨x, sp, r', hx, hb⟩ := names_head h
  rw [metaPath_other (begins_iff.1 hb) (fun hu => unsafe_notPlain (hu ▸ hx)), modSegments,
    (names_stuck h hc hr _ le_rfl).1]
  rfl

theorem metaPath_rooted_stuck {ts' ts : List TT} (hc : ColonsText ts' ts) (h : modSegments ts' = none) :
    metaPath ts = none := by
  rw [metaPath_colons (colons_iff.1 hc), h]
  rfl

theorem metaPath_other' {ts : List TT} (hu : ∀ sp r, ¬ Begins (.ident "unsafe" sp) r ts) (hc : colons ts = none) :
    metaPath ts = (modSegments ts).map fun p => (.ofIdents p.1, p.2) := by
  unfold metaPath
  split
  · rename_i sp r he
    exact absurd (begins_iff.2 he) (hu sp r)
  · simp [hc]

theorem binding_place {R : ErrReader} (hR : R.Sound) {ts : List TT} (h : ¬ BindingText R.value ts) :
    BindFault R ts (nameValuePlace R ts) := by
  unfold nameValuePlace
  split
  · rename_i hp
    unfold pathRest
    split
    · -- rooted
      rename_i c hc
      have hc' := colons_iff.2 hc
      have hl : modSegments c = none := by
        rw [metaPath_colons hc] at hp
        exact Option.map_eq_none_iff.1 hp
      obtain ⟨us0, hp0, hq0⟩ := passes_colons hc'
      obtain ⟨h1, h2⟩ := modRest_names _ le_rfl hl
      generalize modRest (openedAll c).length c = r at h1 h2
      rcases h1 with rfl | ⟨r1, h1, h3⟩
      · refine .name (faultAt_cursor hp0 (starts_viable hR fun q hn => .inr (.inr ⟨_, hq0 _, hn⟩)) ?_)
        intro b r' hb more
        refine not_binding_none (metaPath_rooted_stuck (hq0 _) (modLoop_other (modSegments_plain (enters_plain hb) ?_ more) _))
        rintro x sp hx rfl
        exact h2 x sp r' hx hb
      · obtain ⟨us1, hp1, hq1⟩ := passes_names h1
        obtain ⟨us2, hp2, hq2⟩ := passes_colons h3
        refine .name (faultAt_cursor (passes_append hp0 (passes_append hp1 hp2)) (starts_viable hR ?_) ?_)
        · intro q hn
          rw [List.append_assoc, List.append_assoc]
          refine .inr (.inr ⟨_, hq0 _, ?_⟩)
          exact names_more (hq1 _) (hq2 _) hn
        · intro b r' hb more
          rw [List.append_assoc, List.append_assoc]
          refine not_binding_none (metaPath_rooted_stuck (hq0 _)
            (names_stuck (hq1 _) (hq2 _) (modSegments_plain (enters_plain hb) ?_ more) _ le_rfl).1)
          rintro x sp hx rfl
          exact h2 x sp r' hx hb
    · rename_i hc
      have hu : ∀ sp r, ¬ Begins (.ident "unsafe" sp) r ts := by
        intro sp r hb
        rw [unsafe_metaPath hb] at hp
        cases hp
      have hl : modSegments ts = none := by
        rw [metaPath_other' hu hc] at hp
        exact Option.map_eq_none_iff.1 hp
      obtain ⟨h1, h2⟩ := modRest_names _ le_rfl hl
      generalize modRest (openedAll ts).length ts = r at h1 h2
      rcases h1 with rfl | ⟨r1, h1, h3⟩
      · have hv := starts_viable hR (us := []) fun q hn => .inr (.inl hn)
        by_cases hcol : ∃ sp r', Begins (.punct ':' sp) r' r
        · obtain ⟨sp, r', hb⟩ := hcol
          cases r with
          | nil => cases hb
          | cons t r =>
            refine .colon sp (.stop _) hv hb fun sp' r'' hb' => ?_
            rw [colons_iff.1 ⟨sp, sp', r', hb, hb'⟩] at hc
            cases hc
        · refine .name (faultAt_cursor (.stop _) hv ?_)
          intro b r' hb more
          have ha : ∀ sp r, ¬ Begins (.ident "unsafe" sp) r (b :: more) := by
            intro sp r'' hb'
            obtain ⟨hbs, -⟩ := begins_unique hb' (begins_self (enters_plain hb) more)
            exact hu sp r' (hbs ▸ hb)
          have hd := colons_plain (enters_plain hb) (fun sp hbs => hcol ⟨sp, r', hbs ▸ hb⟩) more
          have hx := modSegments_plain (enters_plain hb) (fun x sp hx hbx => h2 x sp r' hx (hbx ▸ hb)) more
          refine not_binding_none ?_
          rw [List.nil_append, metaPath_other' ha hd, modSegments, modLoop_other hx]
          rfl
      · obtain ⟨us1, hp1, hq1⟩ := passes_names h1
        obtain ⟨us2, hp2, hq2⟩ := passes_colons h3
        refine .name (faultAt_cursor (passes_append hp1 hp2) (starts_viable hR ?_) ?_)
        · intro q hn
          rw [List.append_assoc]
          exact .inr (.inl (names_more (hq1 _) (hq2 _) hn))
        · intro b r' hb more
          rw [List.append_assoc]
          refine not_binding_none (metaPath_stuck (hq1 _) (hq2 _) (modSegments_plain (enters_plain hb) ?_ more))
          intro x sp hx hbx
          exact h2 x sp r' hx (hbx ▸ hb)
  · rename_i p r hp
    have hn := metaPath_nameText hp
    split
    · rename_i sp r' he
      have hb := begins_iff.2 he
      split
      · rename_i hv
        exact .value sp hn hb hv
      · rename_i v rest hv
        rcases enters_or_blank rest with hr | ⟨t, r2, hr⟩
        · exact absurd ⟨r, v, hn, sp, r', hb, rest, hv, hr⟩ h
        · rw [leftPlace_begins hr]
          exact .rest sp hn hb hv hr
    · rename_i he
      have hne : ∀ {b r'}, Begins b r' r → ∀ sp, b ≠ .punct '=' sp := by
        rintro b r' hb sp rfl
        exact he sp r' (begins_iff.1 hb)
      rcases metaPath_name hp with ⟨sp, hu⟩ | ⟨hn', hc⟩
      · refine .name (faultAt_cursor (passes_begins hu)
          (nameText_viable hR fun q => .inl ⟨sp, begins_self (by simp) _⟩) ?_)
        intro b r' hb more
        exact not_binding_eq (enters_plain hb) (hne hb) (unsafe_metaPath (begins_self (by simp) _))
      · have hus : ∃ us, Passes us r ts ∧ ∀ q, BoundName q (us ++ q) ∧
            (colons q = none → ∃ p, metaPath (us ++ q) = some (p, q)) := by
          rcases hn' with hn' | ⟨ts', hc', hn'⟩
          · obtain ⟨us, h1, h2⟩ := passes_names hn'
            exact ⟨us, h1, fun q => ⟨.inr (.inl (h2 q)), names_metaPath (h2 q)⟩⟩
          · obtain ⟨us0, h3, h4⟩ := passes_colons hc'
            obtain ⟨us, h1, h2⟩ := passes_names hn'
            refine ⟨us0 ++ us, passes_append h3 h1, fun q => ?_⟩
            rw [List.append_assoc]
            exact ⟨.inr (.inr ⟨_, h4 _, h2 q⟩), rooted_metaPath (h4 _) (h2 q)⟩
        obtain ⟨us, h1, h2⟩ := hus
        have hv := nameText_viable hR fun q => (h2 q).1
        by_cases hcol : ∃ sp r', Begins (.punct ':' sp) r' r
        · obtain ⟨sp, r', hb⟩ := hcol
          cases r with
          | nil => cases hb
          | cons t r =>
            refine .colon sp h1 hv hb fun sp' r'' hb' => ?_
            rw [colons_iff.1 ⟨sp, sp', r', hb, hb'⟩] at hc
            cases hc
        · refine .name (faultAt_cursor h1 hv ?_)
          intro b r' hb more
          obtain ⟨p', hp'⟩ := (h2 (b :: more)).2 (colons_plain (enters_plain hb) (fun sp hbs => hcol ⟨sp, r', hbs ▸ hb⟩) more)
          exact not_binding_eq (enters_plain hb) (hne hb) hp'

end Hooq
