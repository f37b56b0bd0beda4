import Verif.Spec.NewProject
import Verif.Proof.AttrSpec
import Lean

/-!
# New book projects (C99)
-/

namespace Hooq

/-! ## The text of the test -/

/-- What a format string says, given its arguments: `{{` and `}}` stand for braces, `{name}` for the first
argument of that name, and any other character for itself. -/
inductive FormatSays (args : List (List Char × List Char)) : List Char → List Char → Prop
  | done : FormatSays args [] []
  | left {t x : List Char} : FormatSays args t x → FormatSays args ('{' :: '{' :: t) ('{' :: x)
  | right {t x : List Char} : FormatSays args t x → FormatSays args ('}' :: '}' :: t) ('}' :: x)
  | arg {n v t x : List Char} {before after : List (List Char × List Char)} : n.head? ≠ some '{' → '}' ∉ n →
      args = before ++ (n, v) :: after → n ∉ before.map (·.1) → FormatSays args t x →
      FormatSays args ('{' :: (n ++ '}' :: t)) (v ++ x)
  | char {c : Char} {t x : List Char} : c ≠ '{' → c ≠ '}' → FormatSays args t x → FormatSays args (c :: t) (c :: x)

theorem formatPieces_name (n m r : List Char) (hm : '}' ∉ m) :
    formatPieces (some n) (m ++ '}' :: r) = (formatPieces none r).map (.arg (n ++ m) :: ·) := by
  induction m generalizing n with
  | nil => simp [formatPieces]
  | cons c m ih =>
    simp only [List.mem_cons, not_or] at hm
    rw [List.cons_append, formatPieces.eq_9 n c _ (fun h => hm.1 h.symm), ih _ hm.2]
    simp

theorem formatPieces_open (n r : List Char) (ps : List FormatPiece) (h : formatPieces (some n) r = some ps) :
    ∃ m r' ps', '}' ∉ m ∧ r = m ++ '}' :: r' ∧ formatPieces none r' = some ps' ∧ ps = .arg (n ++ m) :: ps' := by
  induction r generalizing n with
  | nil => simp [formatPieces] at h
  | cons c r ih =>
    by_cases hc : c = '}'
    · subst hc
      rw [formatPieces, Option.map_eq_some_iff] at h
      obtain ⟨ps', h1, h2⟩ := h
      exact ⟨[], r, ps', by simp, rfl, h1, by simp [h2]⟩
    · rw [formatPieces.eq_9 n c _ hc] at h
      obtain ⟨m, r', ps', h1, h2, h3, h4⟩ := ih _ h
      exact ⟨c :: m, r', ps', by simp [h1, Ne.symm hc], by simp [h2], h3, by simp [h4]⟩

theorem find_first (args : List (List Char × List Char)) (n : List Char) (a : List Char × List Char) :
    args.find? (fun a => a.1 == n) = some a ↔
      a.1 = n ∧ ∃ before after, args = before ++ a :: after ∧ n ∉ before.map (·.1) := by
  rw [List.find?_eq_some_iff_append]
  simp only [beq_iff_eq, Bool.not_eq_true', beq_eq_false_iff_ne, List.mem_map, not_exists, not_and]

/-- **C99**, `format!`: the model gives exactly what the format string says, and nothing for a text that is no format
string or names an argument that is not there. -/
theorem C99_format (t : String) (args : List (List Char × List Char)) (x : String) :
    formatText t args = some x ↔ FormatSays args t.toList x.toList := by
  have key : ∀ k (t : List Char), t.length ≤ k → ∀ x,
      (formatPieces none t).bind (formatFill args) = some x ↔ FormatSays args t x := by
    intro k
    induction k with
    | zero =>
      intro t ht x
      obtain rfl : t = [] := List.length_eq_zero_iff.1 (by omega)
      constructor
      · intro h
        simp only [formatPieces, Option.bind_some, formatFill, Option.some.injEq] at h
        exact h ▸ .done
      · rintro ⟨⟩; rfl
    | succ k ih =>
      have step : ∀ c r r', r'.length ≤ k → formatPieces none r = (formatPieces none r').map (.char c :: ·) → ∀ x,
          (formatPieces none r).bind (formatFill args) = some x ↔ ∃ y, x = c :: y ∧ FormatSays args r' y := by
        intro c r r' hl he x
        rw [he]
        simp only [← ih r' hl]
        cases formatPieces none r' with
        | none => simp
        | some ps =>
          simp only [Option.map_some, Option.bind_some, formatFill, Option.map_eq_some_iff]
          constructor
          · rintro ⟨y, h1, h2⟩; exact ⟨y, h2.symm, h1⟩
          · rintro ⟨y, h1, h2⟩; exact ⟨y, h2, h1.symm⟩
      have opened : ∀ r, r.head? ≠ some '{' → r.length ≤ k → ∀ x,
          (formatPieces none ('{' :: r)).bind (formatFill args) = some x ↔ FormatSays args ('{' :: r) x := by
        intro r hr hl x
        have e : formatPieces none ('{' :: r) = formatPieces (some []) r := by
          cases r with
          | nil => rfl
          | cons c r =>
            refine formatPieces.eq_4 _ fun r1 h => hr ?_
            simp only [List.cons.injEq] at h
            simp [h.1]
        constructor
        · intro h
          rw [e] at h
          obtain ⟨ps, h1, h2⟩ := Option.bind_eq_some_iff.1 h
          obtain ⟨m, r', ps', h3, rfl, h4, rfl⟩ := formatPieces_open _ _ _ h1
          rw [formatFill] at h2
          split at h2
          · next a y ha hy =>
            obtain ⟨rfl, before, after, h5, h6⟩ := (find_first _ _ _).1 ha
            simp only [Option.some.injEq] at h2
            subst h2
            refine .arg (v := a.2) (before := before) (after := after) ?_ h3 h5 h6 ((ih r' (by simp at hl; omega) y).1 ?_)
            · intro h7
              cases hm : a.1 with
              | nil => simp [hm] at h7
              | cons c m' =>
                rw [hm] at h7 hr
                exact hr (by simpa using h7)
            · rw [h4]; exact hy
          · cases h2
        · intro h
          cases h with
          | left h => simp at hr
          | char h1 h2 h3 => simp at h1
          | @arg n v t y before after h1 h2 h3 h4 h5 =>
            have h6 := (ih t (by simp at hl; omega) y).2 h5
            obtain ⟨ps, h7, h8⟩ := Option.bind_eq_some_iff.1 h6
            have h9 := (find_first args n (n, v)).2 ⟨rfl, before, after, h3, h4⟩
            rw [e, formatPieces_name _ _ _ h2, h7]
            simp [formatFill, h9, h8]
      intro t ht x
      cases t with
      | nil => exact ih [] (by simp) x
      | cons c r =>
        have hl : r.length ≤ k := by simpa using ht
        by_cases h1 : c = '{'
        · subst h1
          by_cases h2 : r.head? = some '{'
          · obtain ⟨r', rfl⟩ : ∃ r', r = '{' :: r' := by
              cases r with
              | nil => cases h2
              | cons a r' => simp only [List.head?_cons, Option.some.injEq] at h2; exact ⟨r', by rw [h2]⟩
            rw [step '{' _ r' (by simp at hl; omega) rfl]
            constructor
            · rintro ⟨y, rfl, h⟩; exact .left h
            · intro h
              generalize ht : '{' :: '{' :: r' = t at h
              cases h with
              | done => cases ht
              | left h =>
                simp only [List.cons.injEq, true_and] at ht
                exact ⟨_, rfl, ht ▸ h⟩
              | right h => simp at ht
              | char h1 =>
                simp only [List.cons.injEq] at ht
                exact absurd ht.1.symm h1
              | @arg n v t y before after h1 h2 h3 h4 h5 =>
                cases n with
                | nil => simp at ht
                | cons a n => simp at ht h1; exact absurd ht.1.symm h1
          · exact opened r h2 hl x
        · by_cases h2 : c = '}'
          · subst h2
            by_cases h3 : r.head? = some '}'
            · obtain ⟨r', rfl⟩ : ∃ r', r = '}' :: r' := by
                cases r with
                | nil => cases h3
                | cons a r' => simp only [List.head?_cons, Option.some.injEq] at h3; exact ⟨r', by rw [h3]⟩
              rw [step '}' _ r' (by simp at hl; omega) rfl]
              constructor
              · rintro ⟨y, rfl, h⟩; exact .right h
              · intro h
                cases h with
                | right h => exact ⟨_, rfl, h⟩
                | char _ h1 => simp at h1
            · have e : formatPieces none ('}' :: r) = none := by
                cases r with
                | nil => rfl
                | cons a r =>
                  refine formatPieces.eq_5 _ fun r1 h => h3 ?_
                  simp only [List.cons.injEq] at h
                  simp [h.1]
              rw [e]
              constructor
              · intro h; cases h
              · intro h
                cases h with
                | right h => simp at h3
                | char _ h1 => simp at h1
          · rw [step c _ r hl (formatPieces.eq_6 _ _ (fun _ h _ => h1 h) (fun _ h _ => h2 h) h1 h2)]
            constructor
            · rintro ⟨y, rfl, h⟩; exact .char h1 h2 h
            · intro h
              cases h with
              | left => exact absurd rfl h1
              | right => exact absurd rfl h2
              | arg => exact absurd rfl h1
              | char _ _ h => exact ⟨_, rfl, h⟩
  rw [← key _ _ (Nat.le_refl _), formatText]
  cases formatPieces none t.toList with
  | none => simp
  | some ps =>
    simp only [Option.bind_some, Option.map_eq_some_iff]
    constructor
    · rintro ⟨y, h1, rfl⟩; simpa using h1
    · intro h; exact ⟨_, h, by simp⟩

/-- A text with both kinds of braces. -/
example : formatText "{{{x}}}!" [("x".toList, "{y}".toList)] = some "{{y}}!" ∧
    formatText "{x" [("x".toList, "y".toList)] = none ∧ formatText "{z}" [("x".toList, "y".toList)] = none := by
  decide

theorem formatFill_append (args : List (List Char × List Char)) (a b : List FormatPiece) :
    formatFill args (a ++ b) = (formatFill args a).bind fun x => (formatFill args b).map (x ++ ·) := by
  induction a with
  | nil => cases h : formatFill args b <;> simp [formatFill, h]
  | cons p a ih =>
    cases p with
    | char c =>
      simp only [List.cons_append, formatFill, ih]
      cases formatFill args a <;> cases formatFill args b <;> simp
    | arg n =>
      simp only [List.cons_append, formatFill, ih]
      cases args.find? (fun a => a.1 == n) <;> cases formatFill args a <;> cases formatFill args b <;> simp

theorem formatFill_chars (args : List (List Char × List Char)) (cs : List Char) :
    formatFill args (cs.map .char) = some cs := by
  induction cs with
  | nil => rfl
  | cons c cs ih => simp [formatFill, ih]

theorem formatFill_one (name cs ds : List Char) :
    formatFill [("project_name".toList, name)] (cs.map .char ++ (.arg "project_name".toList :: ds.map .char)) =
      some (cs ++ (name ++ ds)) := by
  rw [formatFill_append, formatFill_chars]
  simp [formatFill, formatFill_chars]

open Lean Meta in
/-- The characters of a text, by `String.toList_ofList` (evaluating `String.toList` takes long). -/
elab "toList_of% " id:ident : term => do
  let c ← realizeGlobalConstNoOverload id
  let some (.lit (.strVal v)) := (← getConstInfo c).value? | throwError "not a text"
  let l := toExpr v.toList
  mkExpectedTypeHint (mkApp (mkConst ``String.toList_ofList) l) (← mkEq (mkApp (mkConst ``String.toList) (mkConst c)) l)

theorem stdOutErr_pieces : formatPieces none stdOutErrTemplate.toList =
    some (outputTestStart.toList.map .char ++ (.arg "project_name".toList :: outputTestEnd.toList.map .char)) := by
  rw [toList_of% stdOutErrTemplate, toList_of% outputTestStart, toList_of% outputTestEnd]
  decide +kernel

theorem expand_pieces : formatPieces none expandTemplate.toList = some (expansionTest.toList.map .char) := by
  rw [toList_of% expandTemplate, toList_of% expansionTest]
  decide +kernel

theorem formatText_one {t a b : String} (name : String)
    (h : formatPieces none t.toList = some (a.toList.map .char ++ (.arg "project_name".toList :: b.toList.map .char))) :
    formatText t [("project_name".toList, name.toList)] = some (a ++ name ++ b) := by
  rw [formatText, h, Option.bind_some, formatFill_one, Option.map_some, String.ofList_append, String.ofList_append,
    String.ofList_toList, String.ofList_toList, String.ofList_toList, String.append_assoc]

theorem formatText_chars {t a : String} (args : List (List Char × List Char))
    (h : formatPieces none t.toList = some (a.toList.map .char)) : formatText t args = some a := by
  rw [formatText, h, Option.bind_some, formatFill_chars, Option.map_some, String.ofList_toList]

/-- C99.  The text of the test is the one that the projects of the books have, with the name of the
new project. -/
theorem C99_test (mode : ProjectMode) (name : String) : testText mode name = some (projectTest mode name) := by
  cases mode with
  | stdOutErr => exact formatText_one name stdOutErr_pieces
  | expand => exact formatText_chars _ expand_pieces

/-! ## The manifest -/

theorem editDoc_made {mode : ProjectMode} {doc doc' : Entries} (h : editDoc mode doc = some doc') :
    ManifestMade mode doc doc' := by
  unfold editDoc at h
  split at h
  · rename_i l hl
    obtain rfl := Option.some.inj h
    refine ⟨⟨l, AMap.insert l "hooq" (.table [("path", .str "../../hooq")]), hl, ?_, ?_, ?_⟩, ?_, ?_⟩
    · simp [AMap.get?_insert]
    · simp [AMap.get?_insert]
    · intro k hk
      simp [AMap.get?_insert, Ne.symm hk]
    · cases mode <;> simp [AMap.get?_insert, devTable]
    · intro k h1 h2
      simp [AMap.get?_insert, Ne.symm h1, Ne.symm h2]
  · cases h

theorem editDoc_iff (mode : ProjectMode) (doc : Entries) :
    (∃ doc', editDoc mode doc = some doc') ↔ ∃ l, AMap.get? doc "dependencies" = some (.table l) := by
  unfold editDoc
  split
  · rename_i l hl
    exact ⟨fun _ => ⟨l, hl⟩, fun _ => ⟨_, rfl⟩⟩
  · rename_i hl
    refine ⟨?_, fun ⟨l, h⟩ => absurd h (hl l)⟩
    rintro ⟨_, h⟩
    cases h

theorem toml_ne_test (name : String) : name ++ "/Cargo.toml" ≠ name ++ "/tests" ++ "/test.rs" := by
  intro h
  have := congrArg String.toList h
  simp at this

/-! ## The files -/

theorem write_true {E : ProjectEnv} {p t : String} {fs fs' : Files} :
    E.write p t fs = (true, fs') ↔ E.writeFails p fs = none ∧ fs' = fun q => if q = p then some t else fs q := by
  unfold ProjectEnv.write
  split
  · rename_i h
    simp [h, eq_comm]
  · rename_i h
    simp [h]

theorem write_else {E : ProjectEnv} {p t : String} {fs : Files} {q : String} (h : q ≠ p) : (E.write p t fs).2 q = fs q := by
  unfold ProjectEnv.write
  split <;> simp [h]

theorem write_there {E : ProjectEnv} (hE : E.Sound) {p t : String} {fs : Files} (h : fs p ≠ none) :
    (E.write p t fs).2 p ≠ none := by
  unfold ProjectEnv.write
  split
  · simp
  · rename_i hl
    simpa using hE.keeps _ _ _ hl h

theorem andThen_true {x y : ProjectStep} {fs fs' : Files} :
    ProjectStep.andThen x y fs = (true, fs') ↔ ∃ fs1, x fs = (true, fs1) ∧ y fs1 = (true, fs') := by
  unfold ProjectStep.andThen
  split
  · rename_i f1 h
    simp [h]
  · rename_i f1 h
    simp [h]

theorem andThen_false {x y : ProjectStep} {fs : Files} (h : (x fs).1 = false) :
    ProjectStep.andThen x y fs = (false, (x fs).2) := by
  unfold ProjectStep.andThen
  split
  · rename_i h'
    rw [h'] at h
    cases h
  · rename_i h'
    rw [h']

theorem andThen_run {x y : ProjectStep} {fs : Files} (h : (x fs).1 = true) : ProjectStep.andThen x y fs = y (x fs).2 := by
  unfold ProjectStep.andThen
  split
  · rename_i h'
    rw [h']
  · rename_i h'
    rw [h'] at h
    cases h

theorem editCargoToml_true {E : ProjectEnv} {name : String} {mode : ProjectMode} {fs fs' : Files} :
    editCargoToml E name mode fs = (true, fs') ↔ ∃ text doc doc', fs (name ++ "/Cargo.toml") = some text ∧
      E.parse text = some doc ∧ editDoc mode doc = some doc' ∧
      E.write (name ++ "/Cargo.toml") (E.print doc') fs = (true, fs') := by
  unfold editCargoToml
  cases h1 : fs (name ++ "/Cargo.toml") with
  | none => simp
  | some text =>
    cases h2 : E.parse text with
    | none => simp [h2]
    | some doc => cases h3 : editDoc mode doc <;> simp [h2, h3]

theorem editCargoToml_else {E : ProjectEnv} {name : String} {mode : ProjectMode} {fs : Files} {q : String}
    (h : q ≠ name ++ "/Cargo.toml") : (editCargoToml E name mode fs).2 q = fs q := by
  unfold editCargoToml
  split
  · split
    · exact write_else h
    · rfl
  · rfl

theorem editCargoToml_there {E : ProjectEnv} (hE : E.Sound) {name : String} {mode : ProjectMode} {fs : Files}
    (h : fs (name ++ "/Cargo.toml") ≠ none) : (editCargoToml E name mode fs).2 (name ++ "/Cargo.toml") ≠ none := by
  unfold editCargoToml
  split
  · split
    · exact write_there hE h
    · exact h
  · exact h

theorem createTests_true {E : ProjectEnv} {name : String} {mode : ProjectMode} {fs fs' : Files} :
    createTests E name mode fs = (true, fs') ↔ E.mkdir (name ++ "/tests") fs = true ∧
      E.write (name ++ "/tests" ++ "/test.rs") (projectTest mode name) fs = (true, fs') := by
  unfold createTests
  rw [C99_test]
  cases h : E.mkdir (name ++ "/tests") fs <;> simp

theorem createTests_else {E : ProjectEnv} {name : String} {mode : ProjectMode} {fs : Files} {q : String}
    (h : q ≠ name ++ "/tests" ++ "/test.rs") : (createTests E name mode fs).2 q = fs q := by
  unfold createTests
  rw [C99_test]
  split
  · exact write_else h
  · rfl

/-- C99.  When the script has worked, the project is what cargo made, with hooq in the manifest and the
test of the mode; no other file has changed. -/
theorem C99_made {E : ProjectEnv} {name : String} {mode : ProjectMode} {fs fs' : Files}
    (h : newProject E name mode fs = (true, fs')) :
    ∃ made text doc doc', E.cargoNew name fs = (true, made) ∧ made (name ++ "/Cargo.toml") = some text ∧
      E.parse text = some doc ∧ ManifestMade mode doc doc' ∧
      fs' (name ++ "/Cargo.toml") = some (E.print doc') ∧
      fs' (name ++ "/tests/test.rs") = some (projectTest mode name) ∧
      ∀ q, q ≠ name ++ "/Cargo.toml" → q ≠ name ++ "/tests/test.rs" → fs' q = made q := by
  have e : name ++ "/tests/test.rs" = name ++ "/tests" ++ "/test.rs" := by
    rw [String.append_assoc]
    rfl
  simp only [newProject, andThen_true, editCargoToml_true, createTests_true, write_true] at h
  obtain ⟨made, h1, fs2, ⟨text, doc, doc', h2, h3, h4, -, rfl⟩, -, -, rfl⟩ := h
  refine ⟨made, text, doc, doc', h1, h2, h3, editDoc_made h4, ?_, ?_, ?_⟩
  · simp only [if_neg (toml_ne_test name), if_true]
  · simp only [e, if_true]
  · intro q hq1 hq2
    rw [e] at hq2
    simp only [if_neg hq2, if_neg hq1]

/-- C99.  Where directories and files can be written it works if and only if cargo makes a project whose
manifest has a table of dependencies. -/
theorem C99_works {E : ProjectEnv} (hw : ∀ p fs, E.writeFails p fs = none) (hd : ∀ p fs, E.mkdir p fs = true)
    {name : String} {mode : ProjectMode} {fs : Files} :
    (newProject E name mode fs).1 = true ↔ ∃ made text doc l, E.cargoNew name fs = (true, made) ∧
      made (name ++ "/Cargo.toml") = some text ∧ E.parse text = some doc ∧
      AMap.get? doc "dependencies" = some (.table l) := by
  have : (newProject E name mode fs).1 = true ↔ ∃ fs', newProject E name mode fs = (true, fs') :=
    ⟨fun h => ⟨_, Prod.ext h rfl⟩, fun ⟨_, h⟩ => by rw [h]⟩
  rw [this]
  simp only [newProject, andThen_true, editCargoToml_true, createTests_true, write_true, hw, hd, true_and]
  constructor
  · rintro ⟨_, made, h1, _, ⟨text, doc, doc', h2, h3, h4, -⟩, -⟩
    obtain ⟨l, h5⟩ := (editDoc_iff mode doc).1 ⟨doc', h4⟩
    exact ⟨made, text, doc, l, h1, h2, h3, h5⟩
  · rintro ⟨made, text, doc, l, h1, h2, h3, h4⟩
    obtain ⟨doc', h5⟩ := (editDoc_iff mode doc).2 ⟨l, h4⟩
    exact ⟨_, made, h1, _, ⟨text, doc, doc', h2, h3, h5, rfl⟩, rfl⟩

/-- C99.  However the script ends, it has touched at most the manifest and the test, and the test only
after all else worked. -/
theorem C99_touches (E : ProjectEnv) (name : String) (mode : ProjectMode) (fs : Files) :
    (∀ q, q ≠ name ++ "/Cargo.toml" → q ≠ name ++ "/tests" ++ "/test.rs" →
      (newProject E name mode fs).2 q = (E.cargoNew name fs).2 q) ∧
    ((newProject E name mode fs).2 (name ++ "/tests" ++ "/test.rs") ≠
        (E.cargoNew name fs).2 (name ++ "/tests" ++ "/test.rs") →
      ∃ made edited, E.cargoNew name fs = (true, made) ∧ editCargoToml E name mode made = (true, edited) ∧
        E.mkdir (name ++ "/tests") edited = true) ∧
    ((E.cargoNew name fs).1 = false → newProject E name mode fs = (false, (E.cargoNew name fs).2)) := by
  refine ⟨fun q h1 h2 => ?_, fun hn => ?_, andThen_false⟩
  rotate_left
  · unfold newProject at hn
    cases h : (E.cargoNew name fs).1 with
    | false => rw [andThen_false h] at hn; exact absurd rfl hn
    | true =>
      rw [andThen_run h] at hn
      cases h' : (editCargoToml E name mode (E.cargoNew name fs).2).1 with
      | false => rw [andThen_false h', editCargoToml_else (toml_ne_test name).symm] at hn; exact absurd rfl hn
      | true =>
        refine ⟨_, _, Prod.ext h rfl, Prod.ext h' rfl, ?_⟩
        refine Decidable.byContradiction fun hm => ?_
        rw [andThen_run h', createTests, if_neg hm] at hn
        exact hn (editCargoToml_else (toml_ne_test name).symm)
  unfold newProject
  cases h : (E.cargoNew name fs).1 with
  | false => rw [andThen_false h]
  | true =>
    rw [andThen_run h]
    cases h' : (editCargoToml E name mode (E.cargoNew name fs).2).1 with
    | false => rw [andThen_false h']; exact editCargoToml_else h1
    | true => rw [andThen_run h', createTests_else h2]; exact editCargoToml_else h1

/-- C99.  Once cargo has made the project, running the script again, in whatever mode, fails and changes
nothing, whether the first run worked or stopped halfway. -/
theorem C99_again {E : ProjectEnv} (hE : E.Sound) {name : String} {mode : ProjectMode} {fs : Files}
    (h : (E.cargoNew name fs).1 = true) (mode' : ProjectMode) :
    newProject E name mode' (newProject E name mode fs).2 = (false, (newProject E name mode fs).2) := by
  have ht : (newProject E name mode fs).2 (name ++ "/Cargo.toml") ≠ none := by
    have h1 := editCargoToml_there hE (mode := mode) (hE.makes name fs h)
    rw [newProject, andThen_run h]
    cases h' : (editCargoToml E name mode (E.cargoNew name fs).2).1 with
    | false => rwa [andThen_false h']
    | true => rwa [andThen_run h', createTests_else (toml_ne_test name)]
  have := hE.refuses _ _ ht
  rw [newProject, andThen_false (by rw [this]), this]

/-! ## Where hooq is -/

/-- C99.  `../../hooq` leads from a project of the books to hooq exactly if its name is one
directory: with a name like `a/b` the manifest points to nowhere. -/
theorem C99_path {parts : List String} (hp : parts ≠ []) :
    goTo ("mdbook-source-code" :: parts) ["..", "..", "hooq"] = ["hooq"] ↔ parts.length = 1 := by
  match parts, hp with
  | [a], _ => simp [goTo]
  | [a, b], _ => simp [goTo]
  | a :: b :: c :: l, _ => simp [goTo, List.dropLast]

/-! ## Example -/

namespace Ex

/-- A file system where everything works and cargo makes a manifest for a new project. -/
def cargo : ProjectEnv where
  parse t := if t = "[dependencies]" then some [("package", .table []), ("dependencies", .table [])] else none
  print _ := "printed"
  cargoNew name fs := if fs (name ++ "/Cargo.toml") = none then
      (true, fun q => if q = name ++ "/Cargo.toml" then some "[dependencies]" else fs q)
    else (false, fs)
  mkdir _ _ := true
  writeFails _ _ := none

example : cargo.Sound where
  makes name fs h := by
    by_cases hn : fs (name ++ "/Cargo.toml") = none
    · simp [cargo, hn]
    · simp [cargo, hn] at h
  refuses name fs h := by simp [cargo, h]
  keeps := by simp [cargo]

example : (newProject cargo "x" .expand fun _ => none).1 = true :=
  (C99_works (fun _ _ => rfl) (fun _ _ => rfl)).2 ⟨_, "[dependencies]", _, [], rfl, rfl, rfl, rfl⟩

example (mode : ProjectMode) (name : String) :
    (newProject cargo name mode fun _ => none).2 (name ++ "/tests/test.rs") = some (projectTest mode name) := by
  have h : (newProject cargo name mode fun _ => none).1 = true :=
    (C99_works (fun _ _ => rfl) (fun _ _ => rfl)).2 ⟨_, "[dependencies]", _, [], rfl, by simp, rfl, rfl⟩
  generalize hr : newProject cargo name mode (fun _ => none) = r at h
  obtain ⟨b, fs⟩ := r
  obtain rfl : b = true := h
  obtain ⟨_, _, _, _, -, -, -, -, -, h, -⟩ := C99_made hr
  exact h

end Ex

end Hooq
