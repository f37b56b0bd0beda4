import Verif.Spec.Root
import Verif.Props.FlavorPath
import Verif.Props.Hook

/-!
# Root attribute, presets, inherited methods (C41, C51, C52)
-/

namespace Hooq

/-! ## C41 -/

theorem mapError_ok {ε ε' α : Type} {f : ε → ε'} {x : Except ε α} {a : α} :
    x.mapError f = .ok a ↔ x = .ok a := by cases x <;> simp [Except.mapError]

theorem string_ok_iff (s : String) :
    (∃ l, flavorPathOfString s = .ok l) ↔ ¬ EmptyComponent (sepScan s.toList) := by
  rw [← C33_string_rejected_partial]
  cases flavorPathOfString s <;> simp

theorem rootStep_ok_iff (env : Env) (r : RootAttr) (m : Meta) :
    (∃ r', rootStep env r m = .ok r') ↔ ArgOk env m := by
  cases m with
  | path p =>
    simp only [rootStep, ArgOk]
    constructor
    · rintro ⟨r', h⟩
      obtain ⟨l, h1, -⟩ := except_bind_ok h
      rw [mapError_ok] at h1
      exact (flavorPathOfPath_ok.1 h1).2
    · intro h
      have := flavorPathOfPath_ok.2 ⟨rfl, h⟩
      simp [this, Except.mapError, bind, Except.bind]
  | list p ts =>
    simp only [rootStep, ArgOk, Path.isIdent, List.map_cons, List.map_nil, List.mem_cons,
      List.not_mem_nil, or_false, Bool.or_eq_true, beq_iff_eq]
    split
    · rename_i hp
      cases env.parsePaths ts <;> simp [hp]
    · rename_i hp; simp [hp]
  | nv p v =>
    simp only [rootStep, ArgOk, Path.isIdent]
    cases hv : v.view with
    | litStr s =>
      simp only [beq_iff_eq, ValueView.litStr.injEq, exists_eq_left']
      split
      · rename_i hp
        rw [← string_ok_iff]
        simp only [hp, true_and]
        cases flavorPathOfString s <;> simp [Except.mapError, bind, Except.bind]
      · rename_i hp; simp [hp]
    | path q => simp
    | other => simp

theorem rootStep_ok {env : Env} {r r' : RootAttr} {m : Meta} (h : rootStep env r m = .ok r') :
    r'.flavor = (flavorGiven m).or r.flavor ∧ r'.traitUses = r.traitUses ++ usesGiven env m := by
  cases m with
  | path p =>
    simp only [rootStep] at h
    obtain ⟨l, h1, h⟩ := except_bind_ok h
    rw [mapError_ok] at h1
    obtain ⟨rfl, -⟩ := flavorPathOfPath_ok.1 h1
    obtain rfl := Except.ok.inj h
    simp only [flavorGiven, usesGiven, List.append_nil]
    by_cases hp : p.segs = [] <;> simp [hp]
  | list p ts =>
    simp only [rootStep] at h
    split at h
    · split at h
      · rename_i l hl; obtain rfl := Except.ok.inj h; simp [flavorGiven, usesGiven, hl]
      · simp at h
    · simp at h
  | nv p v =>
    simp only [rootStep] at h
    split at h
    · rename_i s hs
      split at h
      · obtain ⟨l, h1, h⟩ := except_bind_ok h
        rw [mapError_ok] at h1
        obtain rfl := Except.ok.inj h
        simp [flavorGiven, usesGiven, hs, h1, Except.toOption]
      · simp at h
    · simp at h

theorem parseRoot_ok_iff (env : Env) (args : List Meta) (r : RootAttr) :
    (∃ r', parseRoot env r args = .ok r') ↔ ∀ m ∈ args, ArgOk env m := by
  induction args generalizing r with
  | nil => simp [parseRoot]
  | cons m args ih =>
    have := rootStep_ok_iff env r m
    simp only [parseRoot, List.mem_cons, forall_eq_or_imp, ← this]
    cases h : rootStep env r m with
    | error e => simp [bind, Except.bind]
    | ok r1 => simpa [bind, Except.bind] using ih r1

theorem parseRoot_ok {env : Env} {args : List Meta} {r r' : RootAttr} (h : parseRoot env r args = .ok r') :
    r'.flavor = (args.reverse.findSome? flavorGiven).or r.flavor ∧
    r'.traitUses = r.traitUses ++ args.flatMap (usesGiven env) := by
  induction args generalizing r with
  | nil => simp only [parseRoot, Except.ok.injEq] at h; subst h; simp
  | cons m args ih =>
    simp only [parseRoot] at h
    obtain ⟨r1, h1, h2⟩ := except_bind_ok h
    obtain ⟨g1, g2⟩ := rootStep_ok h1
    obtain ⟨k1, k2⟩ := ih h2
    rw [k1, k2, g1, g2]
    simp [List.findSome?_append, Option.or_assoc]

/-- The flavor that the arguments select: the last one given, `default` if none. -/
def selectedFlavor (args : List Meta) : List String :=
  (args.reverse.findSome? flavorGiven).getD ["default"]

/-- C41.  The settings are those of the last flavor given (`default` if none); the trait
uses are those of the arguments in order, followed by those of the flavor. -/
theorem C41_selected {env : Env} {m : FlavorMap} (hm : env.store = .ok m) (hu : UniqMap m)
    {args : List Meta} {s : Settings} (h : rootSettings env args = .ok s) :
    ∃ f, Reaches m (selectedFlavor args) f ∧
      s = { f.settings with traitUses := args.flatMap (usesGiven env) ++ f.settings.traitUses } := by
  simp only [rootSettings] at h
  obtain ⟨r, h1, h⟩ := except_bind_ok h
  simp only [rootLoad] at h
  obtain ⟨d, h2, h⟩ := except_bind_ok h
  obtain ⟨s', h3, h⟩ := except_bind_ok h
  obtain rfl := Except.ok.inj h
  obtain ⟨g1, g2⟩ := parseRoot_ok h1
  have hd : d = ["default"] := by
    rw [mapError_ok] at h2
    have : flavorPathOfString "default" = .ok ["default"] := rfl
    rw [this] at h2
    exact (Except.ok.inj h2).symm
  simp only [Option.or_none, List.nil_append] at g1 g2
  simp only [lookupFlavor, hm] at h3
  split at h3
  · rename_i f hf
    obtain rfl := Except.ok.inj h3
    rw [(C34_lookup hu _).1] at hf
    refine ⟨f, ?_, by rw [g2]⟩
    rw [g1, hd] at hf
    exact hf
  · simp at h3

/-- C41.  The emitted `use` lines. -/
theorem C41_uses {env : Env} {m : FlavorMap} (hm : env.store = .ok m) (hu : UniqMap m)
    {args : List Meta} {i i' : Item} {uses : List Path} (h : hooqImpls env args i = .ok (uses, i')) :
    ∃ f, Reaches m (selectedFlavor args) f ∧
      uses = args.flatMap (usesGiven env) ++ f.settings.traitUses := by
  simp only [hooqImpls] at h
  obtain ⟨s, h1, h⟩ := except_bind_ok h
  obtain ⟨r, -, h2⟩ := except_bind_ok h
  obtain ⟨f, h3, h4⟩ := C41_selected hm hu h1
  refine ⟨f, h3, ?_⟩
  simp only [Except.ok.injEq, Prod.mk.injEq] at h2
  rw [← h2.1, h4]

/-- C41.  The attribute is accepted exactly when every argument has a documented form
and the selected flavor exists; otherwise the expansion fails. -/
theorem C41_accepted {env : Env} {m : FlavorMap} (hm : env.store = .ok m) (hu : UniqMap m)
    (args : List Meta) :
    (∃ s, rootSettings env args = .ok s) ↔
      (∀ a ∈ args, ArgOk env a) ∧ ∃ f, Reaches m (selectedFlavor args) f := by
  constructor
  · rintro ⟨s, h⟩
    refine ⟨?_, ?_⟩
    · simp only [rootSettings] at h
      obtain ⟨r, h1, -⟩ := except_bind_ok h
      exact (parseRoot_ok_iff env args {}).1 ⟨r, h1⟩
    · obtain ⟨f, hf, -⟩ := C41_selected hm hu h
      exact ⟨f, hf⟩
  · rintro ⟨h1, f, h2⟩
    obtain ⟨r, hr⟩ := (parseRoot_ok_iff env args {}).2 h1
    obtain ⟨g1, g2⟩ := parseRoot_ok hr
    have hd : flavorPathOfString "default" = .ok ["default"] := rfl
    have : getFlavor m (r.flavor.getD ["default"]) = .ok f := by
      rw [(C34_lookup hu _).1, g1]
      simpa [selectedFlavor] using h2
    simp [rootSettings, hr, rootLoad, hd, lookupFlavor, hm, this, bind, Except.bind, Except.mapError]

/-- C41.  A malformed argument makes the whole expansion fail. -/
theorem C41_malformed {env : Env} {args : List Meta} {a : Meta} (ha : a ∈ args) (h : ¬ ArgOk env a)
    (i : Item) : ∃ e, hooqImpls env args i = .error e := by
  cases hp : parseRoot env {} args with
  | ok r => exact absurd ((parseRoot_ok_iff env args {}).1 ⟨r, hp⟩ a ha) h
  | error e => exact ⟨e, by simp [hooqImpls, rootSettings, hp, bind, Except.bind]⟩

/-! ## C51 -/

mutual
theorem expandTT_closed {r : RInfo} {so : Span → Except Err (List TT)} {P : String → Prop}
    (hP : ∀ x sp, P x → ∃ o, metaVarTokens r so x sp = .ok o) : ∀ t : TT, t.Closed P →
    ∃ o, expandTT r so t = .ok o
  | .group d ts _, h => by
    obtain ⟨o, ho⟩ := expandList_closed hP false ts h
    exact ⟨.group d o .callSite, by simp only [expandTT, ho, bind, Except.bind]⟩
  | .ident _ _, _ | .punct _ _, _ | .lit _ _, _ | .exprHole _, _ | .sourceHole _, _ | .valueHole _ _, _
  | .bindingsHole _ _, _ | .metaHole _ _, _ => ⟨_, rfl⟩
theorem expandList_closed {r : RInfo} {so : Span → Except Err (List TT)} {P : String → Prop}
    (hP : ∀ x sp, P x → ∃ o, metaVarTokens r so x sp = .ok o) : ∀ (fl : Bool) (ts : List TT), ClosedAll P fl ts →
    ∃ o, expandList r so fl ts = .ok o
  | _, [], _ => ⟨[], by simp [expandList]⟩
  | true, t :: ts, h => by
    obtain ⟨⟨x, ⟨sp, rfl⟩, hx⟩, h2⟩ := h
    obtain ⟨o, ho⟩ := hP x sp hx
    obtain ⟨l, hl⟩ := expandList_closed hP false ts h2
    exact ⟨o ++ l, by simp only [expandList, ho, hl, bind, Except.bind, if_true]⟩
  | false, t :: ts, h => by
    have ht := fun hh => expandTT_closed hP t hh
    have h1 := fun hh => expandList_closed hP true ts hh
    have h2 := fun hh => expandList_closed hP false ts hh
    obtain ⟨g1, g2⟩ := h
    by_cases hp : t.isPunct '$' = true
    · cases t with
      | punct c sp =>
        simp only [TT.isPunct, beq_iff_eq] at hp
        subst hp
        obtain ⟨o, ho⟩ := h1 (g1 sp rfl)
        exact ⟨o, by simp [expandList, TT.isPunct, ho]⟩
      | _ => simp [TT.isPunct] at hp
    · have : ∀ sp, t ≠ .punct '$' sp := by
        rintro sp rfl; simp [TT.isPunct] at hp
      obtain ⟨k1, k2⟩ := g2 this
      obtain ⟨o, ho⟩ := ht k1
      obtain ⟨l, hl⟩ := h2 k2
      exact ⟨o :: l, by simp [expandList, hp, ho, hl, bind, Except.bind]⟩
end

mutual
theorem closed_noDollarTT (P : String → Prop) : ∀ t : TT, t.NoDollar → t.Closed P
  | .group _ ts _, h => closed_noDollar P ts h
  | .ident _ _, _ | .punct _ _, _ | .lit _ _, _ | .exprHole _, _ | .sourceHole _, _ | .valueHole _ _, _
  | .bindingsHole _ _, _ | .metaHole _ _, _ => trivial
theorem closed_noDollar (P : String → Prop) : ∀ ts : List TT, NoDollars ts → ClosedAll P false ts
  | [], _ => trivial
  | t :: ts, h => by
    refine ⟨?_, fun _ => ⟨closed_noDollarTT P t h.1, closed_noDollar P ts h.2⟩⟩
    rintro sp rfl
    exact absurd rfl h.1
end

theorem closed_append (P : String → Prop) {a b : List TT} (ha : NoDollars a) (hb : ClosedAll P false b) :
    ClosedAll P false (a ++ b) := by
  induction a with
  | nil => exact hb
  | cons t a ih =>
    refine ⟨?_, fun _ => ⟨closed_noDollarTT P t ha.1, ih ha.2⟩⟩
    rintro sp rfl
    exact absurd rfl ha.1

theorem closed_var {P : String → Prop} {x : String} {sp sp' : Span} {rest : List TT} (hx : P x)
    (h : ClosedAll P false rest) : ClosedAll P false (.punct '$' sp :: .ident x sp' :: rest) := by
  refine ⟨fun _ _ => ⟨⟨x, ⟨sp', rfl⟩, hx⟩, h⟩, fun hh => absurd rfl (hh sp)⟩

theorem closed_tok {P : String → Prop} {t : TT} {rest : List TT} (ht : ∀ sp, t ≠ .punct '$' sp)
    (h1 : t.Closed P) (h : ClosedAll P false rest) : ClosedAll P false (t :: rest) :=
  ⟨fun sp hh => absurd hh (ht sp), fun _ => ⟨h1, h⟩⟩

/-- The variables that the presets use, `level` only where it is bound. -/
def presetVars (level : Bool) (x : String) : Prop :=
  x ∈ ["path", "line", "col", "source", "expr", "hooq_meta"] ∨ (level = true ∧ x = "level")

theorem closed_head {level : Bool} {helpers : List TT} (hh : NoDollars helpers) (mac : String)
    {rest : List TT} (hr : ClosedAll (presetVars level) false rest) :
    ClosedAll (presetVars level) false (presetHead helpers mac ++ rest) := by
  have e : presetHead helpers mac ++ rest =
      tkId "let" :: tkId "path" :: tkP '=' :: tkP '$' :: tkId "path" :: tkP ';' ::
      tkId "let" :: tkId "line" :: tkP '=' :: tkP '$' :: tkId "line" :: tkP ';' ::
      tkId "let" :: tkId "col" :: tkP '=' :: tkP '$' :: tkId "col" :: tkP ';' ::
      tkId "let" :: tkId "expr" :: tkP '=' :: (helpers ++ (tkP ':' :: tkP ':' :: tkId mac :: tkP '!' ::
        tkParen (tkVar "source") :: tkP ';' :: rest)) := by
    simp [presetHead, tkLet, tkVar]
  rw [e]
  have tok : ∀ {t : TT} {l : List TT}, (∀ sp, t ≠ .punct '$' sp) → t.Closed (presetVars level) →
    ClosedAll (presetVars level) false l → ClosedAll (presetVars level) false (t :: l) :=
    fun a b c => closed_tok a b c
  refine tok (by simp [tkId]) trivial <| tok (by simp [tkId]) trivial <| tok (by simp [tkP]) trivial <|
    closed_var (.inl (by simp)) <| tok (by simp [tkP]) trivial <|
    tok (by simp [tkId]) trivial <| tok (by simp [tkId]) trivial <| tok (by simp [tkP]) trivial <|
    closed_var (.inl (by simp)) <| tok (by simp [tkP]) trivial <|
    tok (by simp [tkId]) trivial <| tok (by simp [tkId]) trivial <| tok (by simp [tkP]) trivial <|
    closed_var (.inl (by simp)) <| tok (by simp [tkP]) trivial <|
    tok (by simp [tkId]) trivial <| tok (by simp [tkId]) trivial <| tok (by simp [tkP]) trivial <|
    closed_append _ hh <| tok (by simp [tkP]) trivial <| tok (by simp [tkP]) trivial <|
    tok (by simp [tkId]) trivial <| tok (by simp [tkP]) trivial <|
    tok (by simp [tkParen]) (closed_var (.inl (by simp)) trivial) <| tok (by simp [tkP]) trivial hr

/-- The template needs only variables that are bound. -/
def SelfContained (s : Settings) : Prop :=
  ∃ level, ClosedAll (presetVars level) false s.method.template ∧
    (level = true → s.bindings.get? "level" ≠ none)

theorem presetVars_mono {x : String} (h : presetVars false x) : presetVars true x := by
  rcases h with h | ⟨h, -⟩
  · exact .inl h
  · simp at h

theorem closed_default {helpers : List TT} (hh : NoDollars helpers) (level : Bool) (name mac : String)
    (pre : List TT) (hpre : NoDollars pre) {rest : List TT}
    (hr : ClosedAll (presetVars level) false rest) :
    ClosedAll (presetVars level) false
      [tkId name, tkParen (pre ++ [tkBrace (presetHead helpers mac ++ rest)])] := by
  refine closed_tok (by simp [tkId]) trivial <| closed_tok (by simp [tkParen]) ?_ trivial
  refine closed_append _ hpre <| closed_tok (by simp [tkBrace]) ?_ trivial
  exact closed_head hh mac hr

theorem preset_selfContained {consume : Bool} {helpers : List TT} (hh : NoDollars helpers)
    (ft : PresetFeatures) : FlavorsAll SelfContained (presetFlavors consume helpers ft) := by
  have t1 : (Method.parse consume (defaultMethodTokens helpers)).template
      = (defaultMethodTokens helpers).tail := by cases consume <;> rfl
  have t2 : (Method.parse consume emptyMethodTokens).template = emptyMethodTokens := by
    cases consume <;> rfl
  have t3 : (Method.parse consume hookMethodTokens).template = hookMethodTokens.tail := by
    cases consume <;> rfl
  have t4 : (Method.parse consume (logMethodTokens helpers)).template
      = (logMethodTokens helpers).tail := by cases consume <;> rfl
  have t5 : (Method.parse consume (anyhowMethodTokens helpers)).template
      = (anyhowMethodTokens helpers).tail := by cases consume <;> rfl
  have t6 : (Method.parse consume (eyreMethodTokens helpers)).template
      = (eyreMethodTokens helpers).tail := by cases consume <;> rfl
  have t7 : (Method.parse consume (tracingMethodTokens helpers)).template
      = (tracingMethodTokens helpers).tail := by cases consume <;> rfl
  have c1 : ClosedAll (presetVars false) false (defaultMethodTokens helpers).tail := by
    simp only [defaultMethodTokens, List.tail_cons, List.append_assoc]
    refine closed_default hh _ _ _ _ ?_ (closed_noDollar _ _ ?_) <;>
      simp [NoDollars, TT.NoDollar, tkAbs, tkP, tkId, tkParen, tkStr]
  have c2 : ClosedAll (presetVars false) false emptyMethodTokens :=
    closed_var (.inl (by simp)) trivial
  have c3 : ClosedAll (presetVars false) false hookMethodTokens.tail := by
    refine closed_tok (by simp [tkId]) trivial <| closed_tok (by simp [tkParen]) ?_ trivial
    refine closed_tok (by simp [tkP]) trivial <| closed_tok (by simp [tkP]) trivial <|
      closed_tok (by simp [tkBrace]) ?_ trivial
    exact closed_var (.inl (by simp)) trivial
  have c4 : ClosedAll (presetVars true) false (logMethodTokens helpers).tail := by
    simp only [logMethodTokens, List.tail_cons, List.append_assoc]
    refine closed_default hh _ _ _ _ ?_ ?_
    · simp [NoDollars, TT.NoDollar, tkP, tkId]
    · refine closed_tok (by simp [tkId]) trivial <| closed_tok (by simp [tkId]) trivial <|
        closed_tok (by simp [tkP]) trivial <| closed_var (.inr ⟨rfl, rfl⟩) <|
        closed_tok (by simp [tkP]) trivial (closed_noDollar _ _ ?_)
      simp [NoDollars, TT.NoDollar, tkAbs, tkP, tkId, tkParen, tkStr]
  have c5 : ClosedAll (presetVars false) false (anyhowMethodTokens helpers).tail := by
    simp only [anyhowMethodTokens, List.tail_cons]
    refine closed_default hh _ _ _ _ ?_ (closed_noDollar _ _ ?_) <;>
      simp [NoDollars, TT.NoDollar, tkP, tkId, tkParen, tkStr]
  have c6 : ClosedAll (presetVars false) false (eyreMethodTokens helpers).tail := by
    simp only [eyreMethodTokens, List.tail_cons]
    refine closed_default hh _ _ _ _ ?_ (closed_noDollar _ _ ?_) <;>
      simp [NoDollars, TT.NoDollar, tkP, tkId, tkParen, tkStr]
  have c7 : ClosedAll (presetVars true) false (tracingMethodTokens helpers).tail := by
    simp only [tracingMethodTokens, List.tail_cons, List.append_assoc]
    refine closed_default hh _ _ _ _ ?_ (closed_append _ ?_ ?_)
    · simp [NoDollars, TT.NoDollar, tkP, tkId]
    · simp [NoDollars, TT.NoDollar, tkAbs, tkP, tkId]
    · refine closed_tok (by simp [tkP]) trivial <| closed_tok (by simp [tkParen]) ?_
        (closed_noDollar _ _ (by simp [NoDollars, TT.NoDollar, tkP]))
      refine closed_var (.inr ⟨rfl, rfl⟩) (closed_noDollar _ _ ?_)
      simp [NoDollars, TT.NoDollar, tkP, tkId]
  have key : ∀ s : Settings, ∀ level, ClosedAll (presetVars level) false s.method.template →
      (level = true → s.bindings.get? "level" ≠ none) → SelfContained s := fun s l h1 h2 => ⟨l, h1, h2⟩
  simp only [presetFlavors, FlavorsAll_append]
  refine ⟨⟨⟨⟨⟨⟨key _ false (t1 ▸ c1) (by simp), trivial⟩, ⟨key _ false (t2 ▸ c2) (by simp), trivial⟩,
    ⟨key _ false (t3 ▸ c3) (by simp), trivial⟩, trivial⟩, ?_⟩, ?_⟩, ?_⟩, ?_⟩
  · split
    · have hl : ∀ v, SelfContained { defaultSettings consume helpers with
          method := Method.parse consume (logMethodTokens helpers), bindings := [("level", v)] } :=
        fun v => key _ true (t4 ▸ c4) (by simp [AMap.get?])
      simp only [levelFlavor, FlavorsAll, Flavor.All, List.map_cons, List.map_nil]
      simp only [and_true]
      exact ⟨hl _, hl _, hl _, hl _, hl _, hl _⟩
    · trivial
  · split
    · exact ⟨⟨key _ false (t5 ▸ c5) (by simp), trivial⟩, trivial⟩
    · trivial
  · split
    · exact ⟨⟨key _ false (t6 ▸ c6) (by simp), trivial⟩, ⟨key _ false (t6 ▸ c6) (by simp), trivial⟩, trivial⟩
    · trivial
  · split
    · have hl : ∀ v, SelfContained { defaultSettings consume helpers with
          method := Method.parse consume (tracingMethodTokens helpers), bindings := [("level", v)] } :=
        fun v => key _ true (t7 ▸ c7) (by simp [AMap.get?])
      simp only [levelFlavor, FlavorsAll, Flavor.All, List.map_cons, List.map_nil]
      simp only [and_true]
      exact ⟨hl _, hl _, hl _, hl _, hl _, hl _⟩
    · trivial

theorem FlavorsAll_mem {P : Settings → Prop} {m : FlavorMap} (h : FlavorsAll P m) {n : String}
    {f : Flavor} (hf : (n, f) ∈ m) : f.All P := by
  induction m with
  | nil => simp at hf
  | cons x m ih =>
    obtain ⟨k, g⟩ := x
    rcases List.mem_cons.1 hf with e | e
    · obtain ⟨rfl, rfl⟩ := Prod.mk.inj e; exact h.1
    · exact ih h.2 e

theorem Reaches.all {P : Settings → Prop} {m : FlavorMap} {q : List String} {f : Flavor}
    (h : Reaches m q f) (hm : FlavorsAll P m) : f.All P := by
  induction h with
  | top h => exact FlavorsAll_mem hm h
  | sub h _ ih => exact ih (FlavorsAll_mem hm h).all_subs

/-- C51.  With the method of a preset in force, and (at least) the bindings of the
preset, the template expands at every target, for every name space of the helpers. -/
theorem C51_presets_expand {consume : Bool} {helpers : List TT} (hh : NoDollars helpers)
    {ft : PresetFeatures} {q : List String} {f : Flavor}
    (hf : Reaches (presetFlavors consume helpers ft) q f) {r : RInfo}
    (hm : r.ctx.method.val = f.settings.method)
    (hb : ∀ x, f.settings.bindings.get? x ≠ none → r.ctx.bindings.get? x ≠ none) :
    ∃ out, expandMethod r = .ok out := by
  obtain ⟨level, h1, h2⟩ := (hf.all (preset_selfContained hh ft)).all_settings
  rw [expandMethod, hm]
  refine expandList_closed (P := presetVars level) ?_ false _ h1
  rintro x sp (hx | ⟨hl, rfl⟩)
  · simp only [List.mem_cons, List.not_mem_nil, or_false] at hx
    rcases hx with rfl | rfl | rfl | rfl | rfl | rfl <;> exact ⟨_, rfl⟩
  · have : MetaVar.ofString "level" = none := rfl
    have hb' := hb _ (h2 hl)
    simp only [metaVarTokens, this]
    cases hg : r.ctx.bindings.get? "level" with
    | none => exact absurd hg hb'
    | some v => exact ⟨_, rfl⟩

/-- The hypotheses of C51 are met, e.g. by `tracing::warn`. -/
example : ∃ f, Reaches (presetFlavors true [tkId "h"] ⟨true, true, true, true⟩) ["tracing", "warn"] f ∧
    NoDollars [tkId "h"] ∧ f.settings.bindings.get? "level" ≠ none :=
  ⟨_, .sub (n := "tracing") (List.mem_append_right _ (List.mem_singleton.2 rfl))
      (.top (List.mem_cons_of_mem _ (List.mem_cons_self ..))), ⟨trivial, trivial⟩, by simp [Flavor.settings, AMap.get?]⟩

/-! ## C52 -/

mutual
theorem expandTT_or {r : RInfo} {so : Span → Except Err (List TT)} {P : String → Prop} {E : Err → Prop}
    (hP : ∀ x sp, P x → (∃ o, metaVarTokens r so x sp = .ok o) ∨
      ∃ e, metaVarTokens r so x sp = .error e ∧ E e) :
    ∀ t : TT, t.Closed P → (∃ o, expandTT r so t = .ok o) ∨ ∃ e, expandTT r so t = .error e ∧ E e
  | .group d ts _, h => by
    rcases expandList_or hP false ts h with ⟨o, ho⟩ | ⟨e, ho, he⟩
    · exact .inl ⟨.group d o .callSite, by simp only [expandTT, ho, bind, Except.bind]⟩
    · exact .inr ⟨e, by simp only [expandTT, ho, bind, Except.bind], he⟩
  | .ident _ _, _ | .punct _ _, _ | .lit _ _, _ | .exprHole _, _ | .sourceHole _, _ | .valueHole _ _, _
  | .bindingsHole _ _, _ | .metaHole _ _, _ => .inl ⟨_, rfl⟩
theorem expandList_or {r : RInfo} {so : Span → Except Err (List TT)} {P : String → Prop} {E : Err → Prop}
    (hP : ∀ x sp, P x → (∃ o, metaVarTokens r so x sp = .ok o) ∨
      ∃ e, metaVarTokens r so x sp = .error e ∧ E e) :
    ∀ (fl : Bool) (ts : List TT), ClosedAll P fl ts →
    (∃ o, expandList r so fl ts = .ok o) ∨ ∃ e, expandList r so fl ts = .error e ∧ E e
  | _, [], _ => .inl ⟨[], by simp [expandList]⟩
  | true, t :: ts, h => by
    obtain ⟨⟨x, ⟨sp, rfl⟩, hx⟩, h2⟩ := h
    rcases hP x sp hx with ⟨o, ho⟩ | ⟨e, ho, he⟩
    · rcases expandList_or hP false ts h2 with ⟨l, hl⟩ | ⟨e, hl, he⟩
      · exact .inl ⟨o ++ l, by simp only [expandList, ho, hl, bind, Except.bind, if_true]⟩
      · exact .inr ⟨e, by simp only [expandList, ho, hl, bind, Except.bind, if_true], he⟩
    · exact .inr ⟨e, by simp only [expandList, ho, bind, Except.bind, if_true], he⟩
  | false, t :: ts, h => by
    have ht := fun hh => expandTT_or hP t hh
    have h1 := fun hh => expandList_or hP true ts hh
    have h2 := fun hh => expandList_or hP false ts hh
    obtain ⟨g1, g2⟩ := h
    by_cases hp : t.isPunct '$' = true
    · cases t with
      | punct c sp =>
        simp only [TT.isPunct, beq_iff_eq] at hp
        subst hp
        have := h1 (g1 sp rfl)
        simpa [expandList, TT.isPunct] using this
      | _ => simp [TT.isPunct] at hp
    · have : ∀ sp, t ≠ .punct '$' sp := by
        rintro sp rfl; simp [TT.isPunct] at hp
      obtain ⟨k1, k2⟩ := g2 this
      rcases ht k1 with ⟨o, ho⟩ | ⟨e, ho, he⟩
      · rcases h2 k2 with ⟨l, hl⟩ | ⟨e, hl, he⟩
        · exact .inl ⟨o :: l, by simp [expandList, hp, ho, hl, bind, Except.bind]⟩
        · exact .inr ⟨e, by simp [expandList, hp, ho, hl, bind, Except.bind], he⟩
      · exact .inr ⟨e, by simp [expandList, hp, ho, bind, Except.bind], he⟩
end

/-- C52.  `#[hooq::method = F]` takes the method of the flavor that `F` names, and
nothing else. -/
theorem C52_only_method {env : Env} {m : FlavorMap} (hm : env.store = .ok m) (hu : UniqMap m)
    {v : Value} {q : List String} {f : Flavor} (hv : getFlavorPath v "method" = .ok q)
    (hf : Reaches m q f) :
    extract env [.nv (hooqPath "method") v] = .ok ({ method := some f.settings.method }, []) := by
  have hg := (C34_lookup hu q).1 f |>.2 hf
  have hne : hooqPath "method" ≠ hooqPath "flavor" := by decide
  simp [extract, extractFrom, inertStep, hne, flavorOfValue, hv, lookupFlavor, hm, hg, bind, Except.bind]

/-- C52.  If a template needs `$x`, which is neither built in nor bound, the expansion
fails; if every other variable of the template stands for something, the error names
`x`. -/
theorem C52_unbound {r : RInfo} {x : String} (hx : ∀ v, ¬ MetaVar.Named v x)
    (hb : r.ctx.bindings.get? x = none)
    (hd : DollarThen (TT.IsName x) r.ctx.method.val.template) :
    (∃ e, expandMethod r = .error e) ∧
    (ClosedAll (fun y => y = x ∨ ∃ o, ∀ sp, metaVarTokens r (soFarOf r r.ctx.method.anc) y sp = .ok o) false
      r.ctx.method.val.template →
      ∃ sp, expandMethod r =
        .error (.unknownVar x ((availableBindings r.ctx.bindings).map (·.1)) sp)) := by
  have hux : ∀ so sp, metaVarTokens r so x sp =
      .error (.unknownVar x ((availableBindings r.ctx.bindings).map (·.1)) sp) := by
    intro so sp; rw [C22_binding r so sp hx, hb]
  have hno : ∀ out, expandMethod r ≠ .ok out := by
    intro out he
    have key := (expandList_iff' (r := r) (soFarOf_spanFree r r.ctx.method.anc) _ out).1 he
    obtain ⟨y, sp, o, ⟨sp', hp⟩, ho⟩ := key.dollarThen hd
    obtain ⟨rfl, -⟩ := TT.ident.inj hp
    rw [hux] at ho
    simp at ho
  refine ⟨?_, fun hc => ?_⟩
  · cases he : expandMethod r with
    | error e => exact ⟨e, rfl⟩
    | ok out => exact absurd he (hno out)
  · rcases expandList_or (r := r) (so := soFarOf r r.ctx.method.anc)
      (E := fun e => ∃ sp, e = .unknownVar x ((availableBindings r.ctx.bindings).map (·.1)) sp) (by
      rintro y sp (rfl | ⟨o, hy⟩)
      · exact .inr ⟨_, hux _ _, sp, rfl⟩
      · exact .inl ⟨o, hy sp⟩) false _ hc with ⟨out, ho⟩ | ⟨e, ho, sp, rfl⟩
    · exact absurd ho (hno out)
    · exact ⟨sp, ho⟩

/-- C52, whole macro: if the method in force at a hook was taken from a flavor and its
template needs a variable that no enclosing node and not the root binds, there is no
output: no hook of any kind with such a method is ever in an output. -/
theorem C52_no_incomplete_hook {env : Env} {args : List Meta} {s : Settings} {i i' : Item}
    {uses : List Path} (hs : rootSettings env args = .ok s) (hb : s.bindings.keys.Nodup)
    (h : hooqImpls env args i = .ok (uses, i')) {p : List Nat} {d : Data} {up : List Data}
    (hu : i.chain p = some (d :: up)) (hr : reached env s (d :: up) = true)
    {x : String} (hx : ∀ v, ¬ MetaVar.Named v x) :
    ∃ n', i'.tree.sub p = some n' ∧ ∀ m ∈ n'.marks,
      let tup := targetUp m.1.kind (d :: up)
      nearest (bindingOf env x) tup = none → s.bindings.get? x = none →
      ¬ DollarThen (TT.IsName x) (methodAt env s tup).template := by
  obtain ⟨n', h1, h2⟩ := C22_hooks hs hb h hu hr
  refine ⟨n', h1, fun m hm h3 h4 hd => ?_⟩
  obtain ⟨σ, sp, out, _, _, _, _, h5⟩ := h2 m hm
  rcases h5 x hd with ⟨v, hv⟩ | h5
  · exact hx v hv
  · simp [h3, h4] at h5

/-- C52, whole macro: such a method in force at a `?` that is to be hooked makes the
expansion fail. -/
theorem C52_reported {env : Env} {args : List Meta} {s : Settings} {i : Item}
    (hs : rootSettings env args = .ok s) (hb : s.bindings.keys.Nodup)
    {p : List Nat} {d : Data} {up : List Data} {q : Span} {b : Bool}
    (hu : i.chain p = some (d :: up)) (hq : d.tag = .question q b)
    (hr : reached env s (d :: up) = true) (hh : hookedAt env s (d :: up) .question = true)
    {x : String} (hx : ∀ v, ¬ MetaVar.Named v x)
    (hn : nearest (bindingOf env x) (d :: up) = none) (hs' : s.bindings.get? x = none)
    (hd : DollarThen (TT.IsName x) (methodAt env s (d :: up)).template) :
    ∃ e, hooqImpls env args i = .error e := by
  cases he : hooqImpls env args i with
  | error e => exact ⟨e, rfl⟩
  | ok r =>
    obtain ⟨uses, i'⟩ := r
    obtain ⟨c', hw⟩ := expansion hs he
    obtain ⟨n, n', k', h1, h2, h3, h4, h5, h6, h7⟩ :=
      question_at (wfItem {} i) hb (agrees_new env s) hw hu hq hr
    rw [if_pos hh] at h6
    obtain ⟨hk, m, e1, e2⟩ := h6
    obtain ⟨out, e3, _⟩ := e2.toks
    rw [methodStack_eq, StackText] at e3
    obtain ⟨y, sp, o, ⟨sp', hp⟩, ho⟩ := e3.dollarThen hd
    obtain ⟨rfl, -⟩ := TT.ident.inj hp
    rw [varText_binding hx] at ho
    obtain ⟨v, hv, -⟩ := ho
    have hv' : (nearest (bindingOf env y) (d :: up)).or (s.bindings.get? y) = some v := by
      rw [← nearest_eq]; exact hv
    simp [hn, hs'] at hv'

namespace Ex

/-- `fn f() { #[hooq::method = log] x?; }` -/
def logItem : Item :=
  .fn [] { ident := "f", output := .none, text := "fn f ()" }
    [.expr (quest [.nv (hooqPath "method") { view := .path (.ofIdents ["log"]), text := "log" }]
      (var "x" 2) 2) true]

end Ex

set_option maxRecDepth 10000 in
/-- The method of `log` without its binding `level`: the error names `level`. -/
example : hooqImpls Ex.env [] Ex.logItem = .error (.unknownVar "level" [] .callSite) := rfl

/-! ### C41: a concrete argument list -/

/-- `#[hooq(anyhow, trait_use(T), flavor = "log.warn")]` -/
example : ∃ s, rootSettings { Ex.env with parsePaths := fun _ => some [.ofIdents ["T"]] }
    [.path (.ofIdents ["anyhow"]), .list (.ofIdents ["trait_use"]) [tkId "T"],
     .nv (.ofIdents ["flavor"]) { view := .litStr "log.warn", text := "\"log.warn\"" }] = .ok s ∧
    s.traitUses = [.ofIdents ["T"]] ∧
    s.bindings = [("level", absPathValue ["log", "Level", "Warn"])] := ⟨_, rfl, rfl, rfl⟩

end Hooq
