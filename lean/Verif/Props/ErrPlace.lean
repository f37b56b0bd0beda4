import Verif.Proof.ErrPlace

/-!
# C87: where an error about an attribute is shown
-/

namespace Hooq

theorem hooqText_of_path {x : String} {r ts : List TT} (h : metaPath ts = some (hooqPath x, r)) : HooqText x r ts := by
  obtain ⟨y, h2, ⟨h3, h4⟩ | ⟨h3, -⟩⟩ := metaPath_pair h ⟨⟨"hooq", false⟩, ⟨x, false⟩, rfl, rfl⟩
  · rw [hooqPath_inj] at h3
    subst h3
    exact h4
  · simp [hooqPath, Path.ofIdents] at h3

theorem hooqList_of_read {value : List TT → Option (Value × List TT)} {x : String} {g ts : List TT}
    (h : readAttr value ts = some (.list (hooqPath x) g)) : HooqList x g ts ∧ argsOf ts = g := by
  rcases readAttr_cases h with ⟨p, r, ha, -⟩ | ⟨p, d, g', sp, r, ha, hd, hp, hr⟩ | ⟨p, v, r, ha, -⟩
  · cases ha
  · cases ha
    exact ⟨⟨d, sp, r, hooqText_of_path hp, hd, hr⟩, by simp [argsOf, hp]⟩
  · cases ha

theorem metaPath_begins {ts r : List TT} {p : Path} (h : metaPath ts = some (p, r)) : ∃ t r', Begins t r' ts := by
  rcases metaPath_name h with ⟨sp, h⟩ | ⟨h | ⟨ts', ⟨sp1, _, r', h1, _⟩, -⟩, -⟩
  · exact ⟨_, _, h⟩
  · obtain ⟨x, sp, r', -, h⟩ := names_head h
    exact ⟨_, _, h⟩
  · exact ⟨_, _, h1⟩

theorem readAttr_begins {value : List TT → Option (Value × List TT)} {ts : List TT} {a : Attr}
    (h : readAttr value ts = some a) : ∃ t r, Begins t r ts := by
  rcases readAttr_cases h with ⟨_, _, -, hp, -⟩ | ⟨_, _, _, _, _, -, -, hp, -⟩ | ⟨_, _, _, -, hp, -⟩ <;>
    exact metaPath_begins hp

/-- C87.  The error about an attribute is shown where it belongs: at the beginning of the
attribute if its name is wrong or stands for something that is not there, at the value if the
value is wrong, and in the arguments otherwise, at the first token with which they cannot be
continued to something accepted. -/
theorem C87_place {R : ErrReader} (hR : R.Sound) {env : Env} (hn : env.parseNameValue = nameValue R.value)
    {ts : List TT} {a : Attr} (h : readAttr R.value ts = some a) {acc : Inert} {e : Err}
    (he : inertStep env acc a = .error e) : ShownAt R ts e (attrPlace R ts e) := by
  have name : ∀ {e}, AboutName e → ShownAt R ts e (leftPlace ts) := by
    intro e he
    obtain ⟨t, r, hb⟩ := readAttr_begins h
    rw [leftPlace_begins hb]
    exact .name he hb
  rw [inertStep_err] at he
  cases he with
  | deep _ _ => exact name (.form _)
  | word _ _ => exact name (.unknown _)
  | call _ _ => exact name (.unknown _)
  | @strings p g hp hs =>
    obtain ⟨x, hx, rfl⟩ := List.mem_map.1 hp
    obtain ⟨hl, hg⟩ := hooqList_of_read h
    have hno : ¬ StringsOk g := by
      rintro ⟨l, hl⟩
      rw [(parseStrings_text _ _).2 hl] at hs
      cases hs
    simp only [attrPlace, hg]
    exact .strings hx hl (strings_place hno).1 (strings_place hno).2
  | target _ _ _ => exact name (.target _)
  | @bool g hb =>
    obtain ⟨hl, hg⟩ := hooqList_of_read h
    have hno : ¬ BoolOk g := by
      rintro (hw | hw)
      · rw [(C55_bool g true).2 hw] at hb
        cases hb
      · rw [(C55_bool g false).2 hw] at hb
        cases hb
    simp only [attrPlace, hg]
    rcases (bool_place hno).1 with ⟨h1, h2⟩ | ⟨x, sp, r, t, r', h1, h2, h3, h4⟩
    · exact .bool hl h1 h2
    · rw [h4]
      exact .behind sp hl h1 h2 h3
  | @binding p g hp hb =>
    obtain ⟨x, hx, rfl⟩ := List.mem_map.1 hp
    obtain ⟨hl, hg⟩ := hooqList_of_read h
    simp only [attrPlace, hg]
    refine .binding (by simpa using hx) hl (binding_place hR ?_)
    rw [bindingText_iff, ← hn, hb]
    simp
  | @name p q g v hp hb _ =>
    obtain ⟨x, hx, rfl⟩ := List.mem_map.1 hp
    obtain ⟨hl, hg⟩ := hooqList_of_read h
    have hb' : ∃ t r, Begins t r g := by
      rw [hn] at hb
      unfold nameValue at hb
      split at hb
      · rename_i hp
        exact metaPath_begins hp
      · cases hb
    obtain ⟨t, r, hb'⟩ := hb'
    simp only [attrPlace, hg, leftPlace_begins hb']
    exact .bound (by simpa using hx) hl hb'
  | @flavor x v _ _ hf =>
    rcases readAttr_cases h with ⟨p, r, ha, -⟩ | ⟨p, d, g', sp, r, ha, -⟩ | ⟨p, v', r, ha, hp, sp, r', hb, rest, hv, -⟩
    · cases ha
    · cases ha
    cases ha
    have value : ∀ {e}, AboutValue e → ShownAt R ts e (.token (R.start (valueOf ts))) := by
      intro e he
      obtain ⟨t, h1, h2⟩ := hR.start hv
      simp only [valueOf, hp, begins_iff.1 hb, h2]
      exact .value sp he (hooqText_of_path hp) hb h1
    cases hf with
    | value _ => exact value (.form _)
    | path _ _ => exact value (.path _)
    | string _ _ => exact value (.path _)
    | load _ _ => exact name (.load _)
    | missing _ _ _ => exact name (.missing _ _)
  | ignore => exact name .ignore

/-- A place that belongs to the attribute is at one of its tokens. -/
theorem ShownAt.within {R : ErrReader} (hR : R.Sound) {ts : List TT} {e : Err} {sp : Span}
    (h : ShownAt R ts e (.token sp)) : ∃ t, Within t ts ∧ sp = t.span := by
  have list : ∀ {x g}, HooqList x g ts → (∃ t, Within t g ∧ sp = t.span) → ∃ t, Within t ts ∧ sp = t.span := by
    rintro x g hl ⟨t, h1, h2⟩
    exact ⟨t, within_list hl h1, h2⟩
  cases h with
  | name _ hb => exact ⟨_, within_begins hb, rfl⟩
  | value sp _ ht hb hw => exact ⟨_, within_hooq ht (within_rest hb hw), rfl⟩
  | strings _ hl _ hf => exact list hl hf.within
  | bool hl _ hf => exact list hl hf.within
  | behind _ hl _ h1 h2 => exact list hl ⟨_, within_rest h1 (within_begins h2), rfl⟩
  | binding _ hl hf =>
    refine list hl ?_
    generalize hp : ErrPlace.token sp = p at hf
    cases hf with
    | name hf => exact (hp ▸ hf).within
    | colon _ h1 _ _ _ => cases hp; exact ⟨_, within_passes h1 (.here _), rfl⟩
    | value _ h1 h2 h3 =>
      obtain ⟨t, h4, h5⟩ := hR.fault h3 hp.symm
      exact ⟨t, within_name h1 (within_rest h2 h4), h5⟩
    | rest _ h1 h2 h3 h4 =>
      cases hp
      exact ⟨_, within_name h1 (within_rest h2 (hR.rest h3 (within_begins h4))), rfl⟩
  | bound _ hl hb => exact ⟨_, within_list hl (within_begins hb), rfl⟩

/-- C87, inside.  The error about an attribute is shown at one of its tokens or at `#[hooq]`. -/
theorem C87_inside {R : ErrReader} (hR : R.Sound) {env : Env} (hn : env.parseNameValue = nameValue R.value)
    {ts : List TT} {a : Attr} (h : readAttr R.value ts = some a) {acc : Inert} {e : Err}
    (he : inertStep env acc a = .error e) :
    attrPlace R ts e = .root ∨ ∃ t, Within t ts ∧ attrPlace R ts e = .token t.span := by
  have hs := C87_place hR hn h he
  cases hp : attrPlace R ts e with
  | root => exact .inl rfl
  | token sp =>
    rw [hp] at hs
    obtain ⟨t, h1, rfl⟩ := hs.within hR
    exact .inr ⟨t, h1, rfl⟩

theorem cursorPlace_macro {ts : List TT} : cursorPlace ts = .root ↔ ts = [] := by
  cases ts <;> simp [cursorPlace]

theorem noWord_nil : ∀ x sp r', PlainWord x → ¬ Begins (.ident x sp) r' [] := by
  intro x sp r' _ h
  cases h

theorem nameValuePlace_macro {R : ErrReader} {ts : List TT} (h : ¬ BindingText R.value ts) :
    nameValuePlace R ts = .root ↔ Unfinished R ts := by
  constructor
  · intro hm
    unfold nameValuePlace at hm
    split at hm
    · rename_i hp
      rw [cursorPlace_macro] at hm
      unfold pathRest at hm
      split at hm
      · rename_i c hc
        have hl : modSegments c = none := by
          rw [metaPath_colons hc] at hp
          exact Option.map_eq_none_iff.1 hp
        have hc' := colons_iff.2 hc
        obtain ⟨h1, -⟩ := modRest_names _ le_rfl hl
        rw [hm] at h1
        rcases h1 with rfl | ⟨r1, h1, h2⟩
        · exact .start (.inr hc')
        · exact .colons (.inr ⟨c, hc', h1⟩) h2
      · rename_i hc
        have hu : ∀ sp r, ¬ Begins (.ident "unsafe" sp) r ts := by
          intro sp r hb
          rw [unsafe_metaPath hb] at hp
          cases hp
        have hl : modSegments ts = none := by
          rw [metaPath_other' hu hc] at hp
          exact Option.map_eq_none_iff.1 hp
        obtain ⟨h1, -⟩ := modRest_names _ le_rfl hl
        rw [hm] at h1
        rcases h1 with rfl | ⟨r1, h1, h2⟩
        · exact .start (.inl rfl)
        · exact .colons (.inl h1) h2
    · rename_i p r hp
      have hn := metaPath_nameText hp
      split at hm
      · rename_i sp r' he
        split at hm
        · rename_i hv
          exact .value sp hn (begins_iff.2 he) hv hm
        · rename_i v rest hv
          rcases enters_or_blank rest with hr | ⟨t, r2, hr⟩
          · exact absurd ⟨r, v, hn, sp, r', begins_iff.2 he, rest, hv, hr⟩ h
          · rw [leftPlace_begins hr] at hm
            cases hm
      · rw [cursorPlace_macro] at hm
        subst hm
        exact .name hn
  · intro hu
    have nilc : colons [] = none := by simp [colons, enteredAll]
    cases hu with
    | start h =>
      rcases h with rfl | h
      · simp [nameValuePlace, metaPath, nilc, enteredAll, modSegments, openedAll, modLoop, pathRest, modRest,
          cursorPlace]
      · have hm : modSegments [] = none := rfl
        simp [nameValuePlace, metaPath_rooted_stuck h hm, pathRest, colons_iff.1 h, openedAll, modRest, cursorPlace]
    | name h =>
      obtain ⟨p, hp⟩ := name_metaPath h nilc
      simp [nameValuePlace, hp, enteredAll, cursorPlace]
    | colons h hc =>
      rcases h with h | ⟨ts', hc', h⟩
      · have hn : colons ts = none := by
          obtain ⟨x, sp, r', -, hb⟩ := names_head h
          simp [colons, begins_iff.1 hb]
        simp only [nameValuePlace, metaPath_stuck h hc noWord_nil, pathRest, hn,
          (names_stuck h hc noWord_nil _ le_rfl).2, cursorPlace]
      · obtain ⟨h1, h2⟩ := names_stuck h hc noWord_nil _ le_rfl
        simp only [nameValuePlace, metaPath_rooted_stuck hc' h1, pathRest, colons_iff.1 hc', h2, cursorPlace]
    | value sp h hb hv hf =>
      obtain ⟨p, hp⟩ := name_metaPath h (eq_noColons hb)
      simp only [nameValuePlace, hp, begins_iff.1 hb, hv, hf]

theorem attrErr_bool {env : Env} {p : Path} {g : List TT} (h : AttrErr env (.list p g) .boolParse) :
    parseBool g = none := by
  generalize ha : Meta.list p g = a at h
  cases h with
  | bool hb => cases ha; exact hb
  | flavor _ hf => cases ha

theorem attrErr_binding {env : Env} {p : Path} {g : List TT} (h : AttrErr env (.list p g) .bindingParse) :
    env.parseNameValue g = none := by
  generalize ha : Meta.list p g = a at h
  cases h with
  | binding _ hb => cases ha; exact hb
  | flavor _ hf => cases ha

/-- C87, at `#[hooq]`.  The error is not shown at the attribute exactly if its arguments are missing
something at the end: the word of `hook_in_macros`, or a part of a binding. -/
theorem C87_macro {R : ErrReader} (hR : R.Sound) {env : Env} (hn : env.parseNameValue = nameValue R.value)
    {ts : List TT} {a : Attr} (h : readAttr R.value ts = some a) {acc : Inert} {e : Err}
    (he : inertStep env acc a = .error e) :
    attrPlace R ts e = .root ↔
      HooqList "hook_in_macros" [] ts ∨ ∃ x g, (x = "binding" ∨ x = "var") ∧ HooqList x g ts ∧ Unfinished R g := by
  have args : ∀ {x g}, HooqList x g ts → PlainWord x → a = .list (hooqPath x) g ∧ argsOf ts = g := by
    rintro x g ⟨d, sp, r, h1, h2, h3⟩ hx
    have hp := metaPath_hooq h1 hx (by simp [colons, group_plain h2])
    have := readAttr_list (value := R.value) hp h2 h3
    rw [h] at this
    exact ⟨Option.some.inj this, by simp [argsOf, hp]⟩
  have plain : PlainWord "hook_in_macros" ∧ PlainWord "binding" ∧ PlainWord "var" := by
    unfold PlainWord
    decide +kernel
  have unbound : ∀ {g}, Unfinished R g → nameValue R.value g = none := by
    intro g hu
    have nilc : colons [] = none := by simp [colons, enteredAll]
    cases hu with
    | start h =>
      rcases h with rfl | h
      · simp [nameValue, metaPath, nilc, enteredAll, modSegments, openedAll, modLoop]
      · simp [nameValue, metaPath_rooted_stuck h (show modSegments [] = none from rfl)]
    | name h =>
      obtain ⟨p, hp⟩ := name_metaPath h nilc
      simp [nameValue, hp, enteredAll]
    | colons h hc =>
      rcases h with h | ⟨ts', hc', h⟩
      · simp [nameValue, metaPath_stuck h hc noWord_nil]
      · simp [nameValue, metaPath_rooted_stuck hc' (names_stuck h hc noWord_nil _ le_rfl).1]
    | value sp h hb hv hf =>
      obtain ⟨p, hp⟩ := name_metaPath h (eq_noColons hb)
      simp [nameValue, hp, begins_iff.1 hb, hv]
  rw [inertStep_err] at he
  constructor
  · intro hm
    have hs := C87_place hR hn h ((inertStep_err env acc a e).2 he)
    rw [hm] at hs
    cases hs with
    | strings _ _ hne _ => exact absurd rfl hne
    | bool hl _ hf =>
      obtain ⟨ha, hg⟩ := args hl plain.1
      subst ha
      refine .inl ?_
      have hno : ¬ BoolOk (argsOf ts) := by
        rw [hg]
        have hb := attrErr_bool he
        rintro (hw | hw)
        · rw [(C55_bool _ true).2 hw] at hb
          cases hb
        · rw [(C55_bool _ false).2 hw] at hb
          cases hb
      simp only [attrPlace] at hm
      rw [(bool_place hno).2, hg] at hm
      subst hm
      exact hl
    | binding hx hl hf =>
      rename_i x g
      refine .inr ⟨x, g, hx, hl, ?_⟩
      obtain ⟨ha, hg⟩ := args hl (by rcases hx with rfl | rfl <;> simp [plain])
      subst ha
      simp only [attrPlace, hg] at hm
      refine (nameValuePlace_macro ?_).1 hm
      rw [bindingText_iff, ← hn, attrErr_binding he]
      simp
  · rintro (hl | ⟨x, g, hx, hl, hu⟩)
    · obtain ⟨rfl, hg⟩ := args hl plain.1
      have : AttrErr env (.list (hooqPath "hook_in_macros") []) .boolParse := .bool rfl
      rw [← inertStep_err env acc] at this he
      rw [this] at he
      cases he
      simp [attrPlace, hg, boolPlace, enteredAll, cursorPlace]
    · obtain ⟨rfl, hg⟩ := args hl (by rcases hx with rfl | rfl <;> simp [plain])
      have hnv := unbound hu
      have : AttrErr env (.list (hooqPath x) g) .bindingParse := by
        refine .binding ?_ (by rw [hn]; exact hnv)
        rcases hx with rfl | rfl <;> simp
      rw [← inertStep_err env acc] at this he
      rw [this] at he
      cases he
      simp only [attrPlace, hg]
      refine (nameValuePlace_macro ?_).2 hu
      rw [bindingText_iff, hnv]
      simp

/-- C87, nodes.  The error of the attributes of a node is shown where it belongs in the first
malformed one. -/
theorem C87_node {R : ErrReader} (hR : R.Sound) {env : Env} (hn : env.parseNameValue = nameValue R.value)
    {tss : List (List TT)} {attrs : List Attr} (h : readAttrs R.value tss = some attrs) {e : Err}
    (he : extract env attrs = .error e) :
    ∃ pre ts post bs, tss = pre ++ ts :: post ∧ readAttrs R.value pre = some bs ∧ (∀ b ∈ bs, AttrOk env b) ∧
      ShownAt R ts e (attrPlace R ts e) := by
  obtain ⟨bs, a, as, rfl, hok, ha⟩ := (C71_attributes env attrs e).1 he
  have key : ∀ (bs : List Attr) (tss : List (List TT)), readAttrs R.value tss = some (bs ++ a :: as) →
      ∃ pre ts post, tss = pre ++ ts :: post ∧ readAttrs R.value pre = some bs ∧ readAttr R.value ts = some a := by
    intro bs
    induction bs with
    | nil =>
      intro tss h
      cases tss with
      | nil => cases h
      | cons ts tss =>
        rw [readAttrs] at h
        split at h
        · rename_i h1 h2
          cases h
          exact ⟨[], ts, tss, rfl, rfl, h1⟩
        · cases h
    | cons b bs ih =>
      intro tss h
      cases tss with
      | nil => cases h
      | cons ts tss =>
        rw [readAttrs] at h
        split at h
        · rename_i h1 h2
          cases h
          obtain ⟨pre, t, post, rfl, h3, h4⟩ := ih tss h2
          exact ⟨ts :: pre, t, post, rfl, by simp [readAttrs, h1, h3], h4⟩
        · cases h
  obtain ⟨pre, ts, post, h1, h2, h3⟩ := key bs tss h
  exact ⟨pre, ts, post, bs, h1, h2, hok, C87_place hR hn h3 ((inertStep_err env {} a e).2 ha)⟩

/-! ## Examples -/

open Ex

/-- A reader of literals that knows where they are. -/
def Ex.placeReader : ErrReader where
  value := readValue
  start ts := match enteredAll ts with
    | some (t :: _) => t.span
    | _ => .callSite
  fault := cursorPlace

theorem Ex.placeReader_sound : placeReader.Sound where
  start := by
    intro r v r' h
    have : ∃ t us, Begins t us r := by
      rcases enters_or_blank r with hb | h'
      · exfalso
        change readValue r = _ at h
        unfold readValue at h
        split at h
        · exact hb _ (.here (by simp))
        · exact hb _ (.here (by simp))
        · simp [blank_entered hb] at h
      · exact h'
    obtain ⟨t, us, hb⟩ := this
    exact ⟨t, within_begins hb, by simp [placeReader, begins_iff.1 hb]⟩
  fault := by
    intro r sp _ h
    cases r with
    | nil => cases h
    | cons t r => cases h; exact ⟨t, .here _, rfl⟩
  rest := by
    intro r v r' t h hw
    change readValue r = _ at h
    unfold readValue at h
    split at h
    · cases h; exact .later _ hw
    · cases h; exact .later _ hw
    · split at h
      · cases h; cases hw
      · cases h
  reads := ⟨[tkStr "a"], _, rfl⟩

/-- A token of the second line. -/
def Ex.at2 (col : Nat) : Span := ⟨"", 2, col⟩

/-- `#[hooq::tail_expr_idents("Err", Ok)]`. -/
def Ex.unquoted : List TT :=
  hooqTk "tail_expr_idents" ++ [.group .paren [tkStr "Err", tkP ',', .ident "Ok" (at2 9)] .callSite]

/-- The word without quotes is reported. -/
example : ShownAt placeReader unquoted .stringsParse (.token (at2 9)) ∧ attrPlace placeReader unquoted .stringsParse ≠ .root :=
  ⟨C87_place (env := textEnv) placeReader_sound rfl (ts := unquoted) rfl (acc := {}) rfl,
    fun h => by cases h⟩

/-- `#[hooq::hook_targets("?", "x")]`: the error about `"x"` is shown at the beginning of the
attribute. -/
example : ∃ a, readAttr readValue
      (.ident "hooq" (at2 2) :: (hooqTk "hook_targets").tail ++ [.group .paren [tkStr "?", tkP ',', .lit (.str "x") (at2 5)] .callSite])
        = some a ∧
    inertStep textEnv {} a = .error (.badHookTarget "x") ∧
    attrPlace placeReader
      (.ident "hooq" (at2 2) :: (hooqTk "hook_targets").tail ++ [.group .paren [tkStr "?", tkP ',', .lit (.str "x") (at2 5)] .callSite])
      (.badHookTarget "x") = .token (at2 2) :=
  ⟨_, rfl, rfl, rfl⟩

/-- `#[hooq::binding(x)]`. -/
def Ex.unbound : List TT := hooqTk "binding" ++ [.group .paren [.ident "x" (at2 3)] (at2 2)]

/-- The error is shown at `#[hooq]`, so that it is not always shown at the attribute. -/
example : attrPlace placeReader unbound .bindingParse = .root :=
  (C87_macro (env := textEnv) placeReader_sound rfl (ts := unbound) rfl (acc := {}) rfl).2
    (.inr ⟨"binding", _, .inl rfl, ⟨.paren, at2 2, [], hooqTk_text _ _, by decide, blank_iff.2 rfl⟩,
      .name (.inr (.inl (.one _ plain_x (begins_iff.2 rfl))))⟩)

/-- `#[hooq::binding(x y)]`: the second word is reported. -/
example : BindFault placeReader [tkId "x", .ident "y" (at2 4)] (.token (at2 4)) :=
  binding_place placeReader_sound (ts := [tkId "x", .ident "y" (at2 4)]) (by rw [bindingText_iff]; decide +kernel)

/-- `#[inline]` and `#[hooq::hook_in_macros(1)]`. -/
example : ∃ pre ts post bs, [[tkId "inline"], hooqTk "hook_in_macros" ++ [.group .paren [.lit (.str "1") (at2 6)] .callSite]]
      = pre ++ ts :: post ∧ readAttrs readValue pre = some bs ∧ (∀ b ∈ bs, AttrOk textEnv b) ∧
      ShownAt placeReader ts .boolParse (attrPlace placeReader ts .boolParse) :=
  C87_node (env := textEnv) placeReader_sound rfl
    (tss := [[tkId "inline"], hooqTk "hook_in_macros" ++ [.group .paren [.lit (.str "1") (at2 6)] .callSite]]) rfl rfl

end Hooq
