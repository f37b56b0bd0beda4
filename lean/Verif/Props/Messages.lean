import Verif.Spec.Message
import Verif.Model.Message
import Verif.Props.FirstError
import Verif.Props.Hook
import Verif.Props.FlavorSpelling

/-!
# What error messages show and where they point (C73)
-/

namespace Hooq

/-! ## Lines of a text -/

theorem lines_split {s t l : List Char} (hl : '\n' ∉ l) :
    (∃ a b, '\n' :: (s ++ '\n' :: t) ++ ['\n'] = a ++ '\n' :: (l ++ '\n' :: b)) ↔
      (∃ a b, '\n' :: s ++ ['\n'] = a ++ '\n' :: (l ++ '\n' :: b)) ∨
      ∃ a b, '\n' :: t ++ ['\n'] = a ++ '\n' :: (l ++ '\n' :: b) := by
  constructor
  · rintro ⟨a, b, h⟩
    have h : ('\n' :: s) ++ ('\n' :: (t ++ ['\n'])) = a ++ '\n' :: (l ++ '\n' :: b) := by
      simpa using h
    have done : ∀ c, '\n' :: s = a ++ ('\n' :: l ++ c) → '\n' :: b = c ++ '\n' :: (t ++ ['\n']) →
        ∃ a b, '\n' :: s ++ ['\n'] = a ++ '\n' :: (l ++ '\n' :: b) := by
      intro c h1 h2
      refine ⟨a, ?_⟩
      cases c with
      | nil => exact ⟨[], by rw [h1]; simp⟩
      | cons x c =>
        obtain ⟨rfl, -⟩ := List.cons.inj h2
        exact ⟨c ++ ['\n'], by rw [h1]; simp⟩
    rcases List.append_eq_append_iff.1 h with ⟨c, rfl, h2⟩ | ⟨c, h1, h2⟩
    · exact .inr ⟨c, b, by simpa using h2⟩
    · cases c with
      | nil => exact .inr ⟨[], b, by simpa using h2.symm⟩
      | cons x c =>
        obtain ⟨rfl, h5⟩ := List.cons.inj h2
        rw [List.append_eq] at h5
        rcases List.append_eq_append_iff.1 h5 with ⟨e, rfl, h3⟩ | ⟨e, h3, h4⟩
        · exact .inl (done e (by simpa using h1) h3)
        · cases e with
          | nil =>
            simp only [List.append_nil] at h3
            subst h3
            exact .inl (done [] (by simpa using h1) (by simpa using h4.symm))
          | cons x e =>
            obtain ⟨rfl, -⟩ := List.cons.inj h4
            exact absurd (by simp [h3]) hl
  · rintro (⟨a, b, h⟩ | ⟨a, b, h⟩)
    · refine ⟨a, b ++ (t ++ ['\n']), ?_⟩
      have := congrArg (· ++ (t ++ ['\n'])) h
      simpa using this
    · refine ⟨'\n' :: s ++ a, b, ?_⟩
      have := congrArg (('\n' :: s) ++ ·) h
      simpa using this

/-- The lines of two texts put on top of each other. -/
theorem hasLine_append (s t l : String) : HasLine (s ++ "\n" ++ t) l ↔ HasLine s l ∨ HasLine t l := by
  simp only [HasLine, String.toList_append, List.append_assoc]
  by_cases hl : '\n' ∈ l.toList
  · simp [hl]
  · simpa [hl] using lines_split (s := s.toList) (t := t.toList) hl

theorem line_one {s l : List Char} (hs : '\n' ∉ s) (hl : '\n' ∉ l) {a b : List Char}
    (h : '\n' :: (s ++ ['\n']) = a ++ '\n' :: (l ++ '\n' :: b)) : l = s := by
  cases a with
  | nil =>
    have h := (List.cons.inj h).2
    rcases List.append_eq_append_iff.1 h with ⟨c, rfl, h2⟩ | ⟨c, rfl, h2⟩
    · cases c with
      | nil => simp
      | cons x c =>
        obtain ⟨rfl, -⟩ := List.cons.inj h2
        simp at hl
    · cases c with
      | nil => simp
      | cons x c =>
        obtain ⟨rfl, -⟩ := List.cons.inj h2
        simp at hs
  | cons x a =>
    have h := (List.cons.inj h).2
    exfalso
    rcases List.append_eq_append_iff.1 h with ⟨c, rfl, h2⟩ | ⟨c, rfl, h2⟩
    · cases c with
      | nil => simp at h2
      | cons y c => simp at h2
    · cases c with
      | nil => simp at h2
      | cons y c =>
        obtain ⟨rfl, -⟩ := List.cons.inj h2
        simp at hs

theorem hasLine_one {s : String} (hs : OneLine s) (l : String) : HasLine s l ↔ l = s := by
  constructor
  · rintro ⟨h1, a, b, h⟩
    exact String.toList_inj.1 (line_one hs h1 (by simpa using h))
  · rintro rfl
    exact ⟨hs, [], [], by simp⟩

theorem oneLine_append {s t : String} : OneLine (s ++ t) ↔ OneLine s ∧ OneLine t := by
  simp [OneLine]

/-- The lines of a list of lines. -/
theorem hasLine_join {ls : List String} (h : ∀ s ∈ ls, OneLine s) (hne : ls ≠ []) (l : String) :
    HasLine ("\n".intercalate ls) l ↔ l ∈ ls := by
  induction ls with
  | nil => exact absurd rfl hne
  | cons a ls ih =>
    cases ls with
    | nil => simpa using hasLine_one (h a (by simp)) l
    | cons b ls =>
      rw [String.intercalate_cons_cons, hasLine_append, hasLine_one (h a (by simp)),
        ih (fun s hs => h s (List.mem_cons_of_mem _ hs)) (by simp), ← List.mem_cons]

/-- As before, without the requirement that there are lines, for a line that is not
empty. -/
theorem hasLine_join' {ls : List String} (h : ∀ s ∈ ls, OneLine s) {l : String} (hl : l ≠ "") :
    HasLine ("\n".intercalate ls) l ↔ l ∈ ls := by
  cases ls with
  | nil =>
    have : HasLine "" l ↔ l = "" := hasLine_one (by simp [OneLine]) l
    simpa [hl] using this
  | cons a ls => exact hasLine_join h (by simp) l

/-! ## Templates -/

theorem dollarThen_imp {P Q : TT → Prop} (h : ∀ t, P t → Q t) {ts : List TT} (hd : DollarThen P ts) :
    DollarThen Q ts := by
  induction hd with
  | here hp => exact .here (h _ hp)
  | later _ ih => exact .later ih
  | inside _ ih => exact .inside ih

theorem substErr_at {σ : String → List TT → Prop} {ε : String → Span → Err → Prop} {ts : List TT}
    {e : Err} (h : SubstErr σ ε ts e) :
    (∃ t, e = .afterDollar t.span ∧ ¬ t.IsIdent ∧ DollarThen (· = t) ts) ∨
      ∃ x sp, ε x sp e ∧ DollarThen (· = .ident x sp) ts := by
  induction h with
  | @after sp t rest hn => exact .inl ⟨t, rfl, fun ⟨x, sp, hx⟩ => hn x sp hx, .here rfl⟩
  | @var sp sp' x rest e hx => exact .inr ⟨x, sp', hx, .here rfl⟩
  | afterVar _ _ ih =>
    rcases ih with ⟨t, h1, h2, h3⟩ | ⟨x, sp, h1, h2⟩
    · exact .inl ⟨t, h1, h2, .later (.later h3)⟩
    · exact .inr ⟨x, sp, h1, .later (.later h2)⟩
  | inGroup _ ih =>
    rcases ih with ⟨t, h1, h2, h3⟩ | ⟨x, sp, h1, h2⟩
    · exact .inl ⟨t, h1, h2, .inside h3⟩
    · exact .inr ⟨x, sp, h1, .inside h2⟩
  | afterGroup _ _ ih =>
    rcases ih with ⟨t, h1, h2, h3⟩ | ⟨x, sp, h1, h2⟩
    · exact .inl ⟨t, h1, h2, .later h3⟩
    · exact .inr ⟨x, sp, h1, .later h2⟩
  | afterTok _ _ _ ih =>
    rcases ih with ⟨t, h1, h2, h3⟩ | ⟨x, sp, h1, h2⟩
    · exact .inl ⟨t, h1, h2, .later h3⟩
    · exact .inr ⟨x, sp, h1, .later h2⟩

theorem stackErr_at {env : Env} {s : Settings} {up : List Data} {k : Kind} {hsp : Span} {n : Nat}
    (pre : List Method) (l : List Method) (he : methodStack env s up = pre ++ l) (hl : l ≠ [])
    (sp : Span) {e : Err} (h : StackErr (siteAt env s up k hsp n) l sp e) : PointsAt env s up e := by
  induction l generalizing pre sp with
  | nil => exact absurd rfl hl
  | cons m l ih =>
    have hm : m ∈ methodStack env s up := by simp [he]
    rcases substErr_at h with ⟨t, rfl, h1, h2⟩ | ⟨x, sp', h1, h2⟩
    · exact .after hm h1 h2
    · cases h1 with
      | soFar h3 h4 =>
        cases l with
        | nil =>
          obtain rfl : e = .noSoFar sp' := h4
          exact .soFar he h3 h2
        | cons m' l => exact ih (pre ++ [m]) (by simp [he]) (by simp) sp' h4
      | unknown h3 h4 h5 =>
        refine .unknown hm h2 h3 h4 ?_ fun y => ?_
        · exact List.pairwise_map.2 h5.sorted
        · simp only [List.mem_map, Prod.exists, exists_and_right, exists_eq_right, h5.exact]
          exact Option.ne_none_iff_exists'.symm

theorem attrErr_notTemplate {env : Env} {a : Attr} {e : Err} (h : AttrErr env a e) :
    ¬ e.InTemplate := by
  cases h with
  | flavor _ hf => cases hf <;> exact id
  | _ => exact id

/-! ## C73 -/

/-- C73, position.  If the expansion of source code stops with an error of a template, there
is a target that is to be hooked, and the error points at the token after a `$` in a method
that counts there; an unknown name is shown with the names that are bound there. -/
theorem C73_points_at {env : Env} {args : List Meta} {s : Settings} {i : Item} {e : Err}
    (hs : rootSettings env args = .ok s) (hn : s.bindings.keys.Nodup) (hsrc : i.IsSource)
    (h : hooqImpls env args i = .error e) (he : e.InTemplate) :
    ∃ p d up k, i.chain p = some (d :: up) ∧ reached env s (d :: up) = true ∧
      hookedAt env s (d :: up) k = true ∧ PointsAt env s (d :: up) e := by
  obtain ⟨p, n, up, hst⟩ := C71_first_error hs hn hsrc h
  rcases hst.error with ⟨_, a, _, _, _, ha⟩ | ⟨_, hf, _⟩
  · exact absurd he (attrErr_notTemplate ha)
  have key : ∀ {k sp cnt rear}, HookErr env s (n.data :: up) k sp cnt rear e →
      PointsAt env s (n.data :: up) e := by
    rintro k sp cnt rear (h1 | ⟨_, _, _, rfl⟩)
    · exact stackErr_at [] _ rfl (by rw [methodStack_eq]; simp) sp h1
    · exact absurd he id
  refine ⟨p, n.data, up, ?_⟩
  cases hf with
  | question q cnt k k' ctx c c' _ _ _ h4 h5 => exact ⟨.question, hst.over, hst.reach, h4, key h5⟩
  | ret cnt k k' ctx c c' _ _ _ _ h4 h5 => exact ⟨.ret, hst.over, hst.reach, h4, key h5⟩
  | tail tk cnt t1 _ _ _ _ h4 h5 => exact ⟨.tail, hst.over, hst.reach, h4, key h5⟩

/-- The built-ins are shown under the first of their names. -/
theorem mem_builtinLines (y : String) :
    (" - $" ++ y) ∈ metaVarsList.map (fun m => " - $" ++ m.display) ↔ ∃ v, ShownAs v y := by
  simp only [List.mem_map, String.append_right_inj]
  constructor
  · rintro ⟨v, -, rfl⟩
    exact ⟨v, by cases v <;> simp [ShownAs, metaVarNames, MetaVar.display]⟩
  · rintro ⟨v, l, h⟩
    refine ⟨v, by cases v <;> simp [metaVarsList], ?_⟩
    simp only [metaVarNames, List.mem_cons, Prod.mk.injEq, List.cons.injEq, List.not_mem_nil,
      or_false] at h
    rcases h with h | h | h | h | h | h | h | h | h | h | h | h <;>
      (obtain ⟨rfl, rfl, -⟩ := h; rfl)

theorem append_shape (a x n b l c m : String) :
    a ++ x ++ (n ++ (b ++ n)) ++ l ++ (n ++ (c ++ n)) ++ m =
      (a ++ x) ++ n ++ (b ++ n ++ (l ++ n ++ (c ++ n ++ m))) := by
  simp only [String.append_assoc]

theorem unknownVarMessage_lines (x : String) (l : List String) : unknownVarMessage x l =
    ("unknown meta variable or binding: $" ++ x) ++ "\n" ++ ("available bindings:" ++ "\n" ++
      ("\n".intercalate (l.map fun k => " - $" ++ k) ++ "\n" ++
        ("available meta variables:" ++ "\n" ++
          "\n".intercalate (metaVarsList.map fun m => " - $" ++ m.display)))) := by
  have h1 : "\navailable bindings:\n" = "\n" ++ ("available bindings:" ++ "\n") := by
    decide +kernel
  have h2 : "\navailable meta variables:\n" = "\n" ++ ("available meta variables:" ++ "\n") := by
    decide +kernel
  unfold unknownVarMessage
  rw [h1]
  rw [h2]
  exact append_shape ..

/-- C73, text.  The message for an unknown name offers exactly the names given and the
built-ins. -/
theorem C73_offers {x : String} {l : List String} (hx : OneLine x) (hl : ∀ y ∈ l, OneLine y)
    (y : String) :
    HasLine (unknownVarMessage x l) (" - $" ++ y) ↔ y ∈ l ∨ ∃ v, ShownAs v y := by
  have hne : " - $" ++ y ≠ "" := by
    intro h; have := congrArg String.toList h; simp at this
  have o1 : OneLine ("unknown meta variable or binding: $" ++ x) :=
    oneLine_append.2 ⟨by simp [OneLine], hx⟩
  have o2 : OneLine "available bindings:" := by simp [OneLine]
  have o3 : OneLine "available meta variables:" := by simp [OneLine]
  have o4 : ∀ t ∈ l.map (fun k => " - $" ++ k), OneLine t := by
    simp only [List.mem_map]
    rintro _ ⟨k, hk, rfl⟩
    exact oneLine_append.2 ⟨by simp [OneLine], hl k hk⟩
  have o5 : ∀ t ∈ metaVarsList.map (fun m => " - $" ++ m.display), OneLine t := by
    simp only [List.mem_map]
    rintro _ ⟨k, hk, rfl⟩
    exact oneLine_append.2 ⟨by simp [OneLine], by cases k <;> simp [OneLine, MetaVar.display]⟩
  have n1 : " - $" ++ y ≠ "unknown meta variable or binding: $" ++ x := by
    intro h; have := congrArg String.toList h; simp at this
  have n2 : " - $" ++ y ≠ "available bindings:" := by
    intro h; have := congrArg String.toList h; simp at this
  have n3 : " - $" ++ y ≠ "available meta variables:" := by
    intro h; have := congrArg String.toList h; simp at this
  rw [unknownVarMessage_lines, hasLine_append, hasLine_append, hasLine_append, hasLine_append, hasLine_one o1,
    hasLine_one o2, hasLine_one o3, hasLine_join' o4 hne, hasLine_join' o5 hne, mem_builtinLines]
  simp [n1, n2, n3]

/-- C73, use.  What the message offers at a target is of use there: apart from `$so_far`,
every name offered stands for something, and the unknown name is not offered. -/
theorem C73_offered_usable {env : Env} {s : Settings} {up : List Data} {x : String}
    {l : List String} {sp : Span} (hp : PointsAt env s up (.unknownVar x l sp))
    (hx : OneLine x) (hl : ∀ y ∈ l, OneLine y) :
    ¬ HasLine (unknownVarMessage x l) (" - $" ++ x) ∧
    ∀ y, HasLine (unknownVarMessage x l) (" - $" ++ y) → ¬ MetaVar.Named .soFar y →
      ∀ r : RInfo, Agrees env s up r.ctx → ∀ so sp, ∃ o, metaVarTokens r so y sp = .ok o := by
  cases hp with
  | unknown _ _ h3 h4 _ h6 =>
    simp only [C73_offers hx hl]
    refine ⟨?_, fun y hy hne r ha so sp => ?_⟩
    · rintro (h | ⟨v, l', h⟩)
      · exact (h6 x).1 h h4
      · exact h3 v ⟨_, h, by simp⟩
    · have hb : (∃ v, MetaVar.Named v y) ∨ ((∀ v, ¬ MetaVar.Named v y) ∧ y ∈ l) := by
        rcases hy with hy | ⟨v, l', h⟩
        · by_cases hv : ∃ v, MetaVar.Named v y
          · exact .inl hv
          · exact .inr ⟨fun v h => hv ⟨v, h⟩, hy⟩
        · exact .inl ⟨v, _, h, by simp⟩
      rcases hb with ⟨v, hv⟩ | ⟨hv, hy⟩
      · rcases C22_builtin_total r so hv with ⟨rfl, h⟩ | ⟨_, t, h⟩
        · exact absurd hv hne
        · exact ⟨_, h sp⟩
      · rw [C22_binding r so sp hv]
        have := (h6 y).1 hy
        rw [← ha.bindings y] at this
        cases hg : r.ctx.bindings.get? y with
        | none => exact absurd hg this
        | some v => exact ⟨_, rfl⟩

theorem hasLine_flavors {names : List (List String)} (h : ∀ q ∈ names, OneLine (displayPath q))
    (y : String) : HasLine (flavorLines names) ("  - " ++ y) ↔ ∃ q ∈ names, y = displayPath q := by
  have hne : "  - " ++ y ≠ "" := by
    intro h; have := congrArg String.toList h; simp at this
  rw [flavorLines, hasLine_join' ?_ hne]
  · simp only [List.mem_map, String.append_right_inj]
    exact ⟨fun ⟨q, h1, h2⟩ => ⟨q, h1, h2.symm⟩, fun ⟨q, h1, h2⟩ => ⟨q, h1, h2.symm⟩⟩
  · simp only [List.mem_map]
    rintro _ ⟨q, hq, rfl⟩
    exact oneLine_append.2 ⟨by simp [OneLine], h q hq⟩

theorem flavorNotFound_lines (path : List String) (names : List (List String)) :
    flavorNotFoundMessage path names =
      ("flavor `" ++ displayPath path ++ "` is not found. available flavors:") ++ "\n" ++
        flavorLines names := by
  have h1 : "` is not found. available flavors:\n" = "` is not found. available flavors:" ++ "\n" := by
    decide +kernel
  unfold flavorNotFoundMessage displayPath
  rw [h1]
  simp only [String.append_assoc]

theorem rootArg_shape (a b c l d n : String) :
    a ++ (n ++ (n ++ (b ++ (n ++ (c ++ n))))) ++ l ++ (n ++ (d ++ n)) =
      a ++ n ++ ("" ++ n ++ (b ++ n ++ (c ++ n ++ (l ++ n ++ (d ++ n ++ ""))))) := by
  simp only [String.append_assoc, String.empty_append, String.append_empty]

theorem rootArg_lines (names : List (List String)) :
    rootArgMessage names =
      "expected attribute formats are below:" ++ "\n" ++ ("" ++ "\n" ++ ("- trait_use(...)" ++ "\n" ++
        ("- FLAVOR_NAME" ++ "\n" ++ (flavorLines names ++ "\n" ++
          ("- flavor = \"FLAVOR_NAME\"" ++ "\n" ++ ""))))) := by
  have h1 : "expected attribute formats are below:\n\n- trait_use(...)\n- FLAVOR_NAME\n" =
      "expected attribute formats are below:" ++ ("\n" ++ ("\n" ++ ("- trait_use(...)" ++ ("\n" ++
        ("- FLAVOR_NAME" ++ "\n"))))) := by decide +kernel
  have h2 : "\n- flavor = \"FLAVOR_NAME\"\n" = "\n" ++ ("- flavor = \"FLAVOR_NAME\"" ++ "\n") := by
    decide +kernel
  unfold rootArgMessage
  rw [h1]
  rw [h2]
  exact rootArg_shape ..

/-- C73, flavors.  The message for a flavor that does not exist offers exactly the flavors
that do. -/
theorem C73_flavors {m : FlavorMap} {path : List String} {names : List (List String)}
    (hu : UniqMap m) (he : getFlavor m path = .error names) (hp : OneLine (displayPath path))
    (hq : ∀ q f, Reaches m q f → OneLine (displayPath q)) (y : String) :
    HasLine (flavorNotFoundMessage path names) ("  - " ++ y) ↔
      ∃ q f, Reaches m q f ∧ y = displayPath q := by
  obtain ⟨-, hm⟩ := C34_names hu he
  have n1 : "  - " ++ y ≠ "flavor `" ++ displayPath path ++ "` is not found. available flavors:" := by
    intro h; have := congrArg String.toList h; simp at this
  rw [flavorNotFound_lines, hasLine_append, hasLine_one, hasLine_flavors]
  · simp only [n1, false_or, hm]
    exact ⟨fun ⟨q, ⟨f, h1⟩, h2⟩ => ⟨q, f, h1, h2⟩, fun ⟨q, f, h1, h2⟩ => ⟨q, ⟨f, h1⟩, h2⟩⟩
  · intro q hmem
    obtain ⟨f, hf⟩ := (hm q).1 hmem
    exact hq q f hf
  · exact oneLine_append.2 ⟨oneLine_append.2 ⟨by simp [OneLine], hp⟩, by simp [OneLine]⟩

/-- C73, root.  The message for a bad argument of the root attribute offers exactly the
flavors that exist, and none if they cannot be loaded. -/
theorem C73_root_help {env : Env} {r : RootAttr} {a : Meta} {names : List (List String)}
    (he : rootStep env r a = .error (.rootArg names))
    (hq : ∀ m q f, env.store = .ok m → Reaches m q f → OneLine (displayPath q)) (y : String) :
    HasLine (rootArgMessage names) ("  - " ++ y) ↔
      ∃ m q f, env.store = .ok m ∧ Reaches m q f ∧ y = displayPath q := by
  have hn : names = helpOf env := by
    cases (rootStep_err ..).1 he <;> rfl
  have hm : ∀ q, q ∈ names ↔ ∃ m f, env.store = .ok m ∧ Reaches m q f := by
    intro q
    rw [hn, helpOf]
    cases env.store with
    | error e => simp [Except.map, Except.toOption]
    | ok m => simp [Except.map, Except.toOption, allFlavorNames, collectNamesList_mem]
  have n : ∀ z : String, z.toList.head? ≠ some ' ' → "  - " ++ y ≠ z := by
    rintro z h rfl; simp at h
  rw [rootArg_lines, hasLine_append, hasLine_append, hasLine_append, hasLine_append, hasLine_append,
    hasLine_append, hasLine_flavors, hasLine_one, hasLine_one, hasLine_one, hasLine_one, hasLine_one]
  · simp only [n "expected attribute formats are below:" (by simp), n "" (by simp),
      n "- trait_use(...)" (by simp), n "- FLAVOR_NAME" (by simp),
      n "- flavor = \"FLAVOR_NAME\"" (by simp), false_or, or_false, hm]
    exact ⟨fun ⟨q, ⟨m, f, h1, h2⟩, h3⟩ => ⟨m, q, f, h1, h2, h3⟩,
      fun ⟨m, q, f, h1, h2, h3⟩ => ⟨q, ⟨m, f, h1, h2⟩, h3⟩⟩
  all_goals first
    | (simp [OneLine]; done)
    | (intro q hmem
       obtain ⟨m, f, h1, h2⟩ := (hm q).1 hmem
       exact hq m q f h1 h2)

/-- C73, use.  A flavor spelled as it is offered is that flavor, if its names contain no
separators. -/
theorem C73_flavor_usable {env : Env} {m : FlavorMap} (hm : env.store = .ok m) (hu : UniqMap m)
    {q : List String} {f : Flavor} (hf : Reaches m q f) (hq : ∀ n ∈ q, NameOk n.toList)
    (hc : ∀ n ∈ q.dropLast, n.toList.getLast? ≠ some ':') (text setting : String) :
    flavorOfValue env { view := .litStr (displayPath q), text := text } setting = .ok f.settings := by
  have h1 := (C65_display q).2 ⟨(reaches_ne hf).1, hq, hc⟩
  have h2 := ((C34_lookup hu q).1 f).2 hf
  simp [flavorOfValue, getFlavorPath, h1, Except.mapError, lookupFlavor, hm, h2, bind, Except.bind]

section
open Ex
set_option maxRecDepth 10000

/-- `#[hooq::method(.a($b))] #[hooq::binding(k = 1)] fn f() -> Result { y? }` with the `b` at
line 7. -/
def Ex.misnamed : Item :=
  .fn [.nv (hooqPath "k") ⟨.other, "1"⟩, .list (hooqPath "method")
      [tkP '.', tkId "a", tkParen [tkP '$', .ident "b" (sp 7 3)]]]
    { ident := "f", output := result, text := "fn f () -> Result" }
    [.expr (quest [] (var "y" 2) 2) true]

/-- The error shows the binding and points at the `b`. -/
example : hooqImpls env [] Ex.misnamed = .error (.unknownVar "b" ["k"] (sp 7 3)) := rfl

example : ∃ p d up k, Ex.misnamed.chain p = some (d :: up) ∧ reached env settings (d :: up) = true ∧
    hookedAt env settings (d :: up) k = true ∧
    PointsAt env settings (d :: up) (.unknownVar "b" ["k"] (sp 7 3)) :=
  C73_points_at (args := []) root_ok (by decide)
    (fun p n hs => by
      simpa using allNodes_sub (t := Ex.misnamed.tree) (f := fun n => !n.built) rfl hs) rfl trivial

/-- The text of that error. -/
example : unknownVarMessage "b" ["k"] =
    "unknown meta variable or binding: $b\navailable bindings:\n - $k\navailable meta variables:\n - $line\n - $column\n - $path\n - $file\n - $expr\n - $source\n - $count\n - $fn_name\n - $fn_sig\n - $so_far\n - $bindings\n - $hooq_meta" := by
  decide +kernel

example : HasLine (unknownVarMessage "b" ["k"]) (" - $" ++ "k") ∧
    ¬ HasLine (unknownVarMessage "b" ["k"]) (" - $" ++ "b") := by
  have h := C73_offers (x := "b") (l := ["k"]) (by simp [OneLine]) (by simp [OneLine])
  rw [h, h]
  simp [ShownAs, metaVarNames]

/-- Flavors are offered in the order of the map, which for a hash map may be any: the same
configuration does not always give the same message. -/
example : ∃ m m' names names', m.Perm m' ∧ getFlavor m ["nope"] = .error names ∧
    getFlavor m' ["nope"] = .error names' ∧
    flavorNotFoundMessage ["nope"] names ≠ flavorNotFoundMessage ["nope"] names' :=
  ⟨[("a", .mk settings []), ("b", .mk settings [])], [("b", .mk settings []), ("a", .mk settings [])],
    _, _, .swap .., rfl, rfl, by decide +kernel⟩

/-- A flavor whose name contains a separator (a quoted key of hooq.toml) is offered, but
what is offered does not name it. -/
example : ∃ m f names, Reaches m ["a.b"] f ∧ getFlavor m ["nope"] = .error names ∧
    ["a.b"] ∈ names ∧ flavorPathOfString (displayPath ["a.b"]) = .ok ["a", "b"] :=
  ⟨[("a.b", .mk settings [])], _, _, .top (List.mem_singleton.2 rfl), rfl, by simp [allFlavorNames, collectNamesList], by
    rw [flavorPathOfString_eq]; decide +kernel⟩

end

end Hooq
