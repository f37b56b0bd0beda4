import Verif.Spec.Presets
import Verif.Props.Root
import Verif.Props.Exact
import Verif.Props.FlavorPath

/-!
# C58: the built-in flavors do what the reference says
-/

namespace Hooq

theorem wordsOf_append (a b : List TT) : wordsOf (a ++ b) = wordsOf a ++ wordsOf b := by
  induction a with
  | nil => rfl
  | cons t a ih => simp [wordsOf, ih]

theorem words_setSpan (sp : Span) (t : TT) : (t.setSpan sp).words = t.words := by
  cases t <;> simp [TT.setSpan, TT.words]

theorem wordsOf_setSpan (sp : Span) (ts : List TT) : wordsOf (ts.map (TT.setSpan sp)) = wordsOf ts := by
  induction ts with
  | nil => rfl
  | cons t ts ih => simp [wordsOf, ih, words_setSpan]

mutual
/-- The spelling of a token with `w x` for every `$x`. -/
def TT.fill (w : String → List String) : TT → List String
  | .group d ts _ => d.opening ++ fillAll w false ts ++ d.closing
  | t => t.words
/-- The spelling of a template with `w x` for every `$x`. -/
def fillAll (w : String → List String) : Bool → List TT → List String
  | _, [] => []
  | true, .ident x _ :: ts => w x ++ fillAll w false ts
  | true, _ :: _ => []
  | false, t :: ts => if t.isPunct '$' then fillAll w true ts else t.fill w ++ fillAll w false ts
end

mutual
theorem fill_noDollar (w : String → List String) : ∀ t : TT, t.NoDollar → t.fill w = t.words
  | .group _ ts _, h => by simp only [TT.fill, TT.words, fillAll_noDollar w ts h]
  | .ident _ _, _ | .punct _ _, _ | .lit _ _, _ | .exprHole _, _ | .sourceHole _, _ | .valueHole _ _, _
  | .bindingsHole _ _, _ | .metaHole _ _, _ => rfl
theorem fillAll_noDollar (w : String → List String) : ∀ ts : List TT, NoDollars ts →
    fillAll w false ts = wordsOf ts
  | [], _ => by simp [fillAll, wordsOf]
  | t :: ts, h => by
    have ht : t.isPunct '$' = false := by
      have := h.1
      cases t <;> simp_all [TT.isPunct, TT.NoDollar]
    rw [fillAll, ht, wordsOf, fill_noDollar w t h.1, fillAll_noDollar w ts h.2]
    simp
end

theorem fillAll_append (w : String → List String) {a : List TT} (ha : NoDollars a) (b : List TT) :
    fillAll w false (a ++ b) = wordsOf a ++ fillAll w false b := by
  induction a with
  | nil => rfl
  | cons t a ih =>
    have ht : t.isPunct '$' = false := by
      have := ha.1
      cases t <;> simp_all [TT.isPunct, TT.NoDollar]
    rw [List.cons_append, fillAll, ht, wordsOf, fill_noDollar w t ha.1, ih ha.2]
    simp

theorem Subst.fill {σ : String → List TT → Prop} {P : String → Prop} {w : String → List String}
    (hσ : ∀ x o, P x → σ x o → wordsOf o = w x) {ts out : List TT} (h : Subst σ ts out)
    (hc : ClosedAll P false ts) : wordsOf out = fillAll w false ts := by
  induction h with
  | nil => simp [fillAll, wordsOf]
  | @var sp sp' x o rest out h1 h2 ih =>
    obtain ⟨⟨y, ⟨_, e⟩, hy⟩, h4⟩ := hc.1 sp rfl
    simp only [TT.ident.injEq] at e
    obtain ⟨rfl, -⟩ := e
    rw [wordsOf_append, hσ _ _ hy h1, ih h4]
    simp [fillAll, TT.isPunct]
  | group h1 h2 ih1 ih2 =>
    obtain ⟨h3, h4⟩ := hc.2 (by simp)
    simp [fillAll, wordsOf, TT.words, TT.isPunct, TT.fill, ih1 h3, ih2 h4]
  | @tok t rest out h1 h2 h3 ih =>
    obtain ⟨_, h4⟩ := hc.2 h1
    have ht : t.isPunct '$' = false := by
      cases t <;> simp_all [TT.isPunct]
    rw [wordsOf, ih h4, fillAll, ht]
    cases t <;> simp_all [TT.fill]
  | lastDollar => simp [fillAll, wordsOf, TT.isPunct]

/-- What the expansion puts for the variables of the presets. -/
def Spot.var (a : Spot) (level : Option (List String)) (x : String) : List String :=
  if x = "path" then ["\"" ++ a.path ++ "\""]
  else if x = "line" then [toString a.line ++ "usize"]
  else if x = "col" then [toString a.col ++ "usize"]
  else if x = "source" then ["$source"]
  else if x = "expr" then ["$expr"]
  else if x = "hooq_meta" then ["$hooq_meta"]
  else absWords (level.getD [])

/-- A flavor has the settings of a row of the table. -/
structure Documented (doc : PresetDoc) (f : Flavor) : Prop where
  targets : f.settings.targets = if doc.path = ["empty"] then ⟨false, false, false⟩ else ⟨true, true, true⟩
  tailIdents : f.settings.tailIdents = if doc.path = ["empty"] then [] else ["Err"]
  ignoreIdents : f.settings.ignoreIdents = if doc.path = ["empty"] then [] else ["Ok"]
  resultTypes : f.settings.resultTypes = if doc.path = ["empty"] then [] else ["Result"]
  hookInMacros : f.settings.hookInMacros = true ↔ doc.path ≠ ["empty"]
  traitUses : List.Forall₂ Path.IsAbs f.settings.traitUses doc.uses
  noLevel : doc.level = none → f.settings.bindings = []
  level : ∀ l, doc.level = some l → ∃ v p, f.settings.bindings = [("level", v)] ∧
    v.view = .path p ∧ p.IsAbs l ∧ v.text = absText l

theorem text_absPathValue (l : List String) : (absPathValue l).text = absText l := by
  induction l with
  | nil => rfl
  | cons x l ih => simp only [absPathValue, List.foldr_cons, absText] at ih ⊢; rw [ih]

theorem isAbs_absPath (l : List String) : (absPath l).IsAbs l := by
  simp [absPath, Path.IsAbs, Function.comp_def]

theorem fill_head {helpers : List TT} (hh : NoDollars helpers) (a : Spot) (ha : a.helpers = wordsOf helpers)
    (lv : Option (List String)) (mac : String) (rest : List TT) :
    fillAll (a.var lv) false (presetHead helpers mac ++ rest) = a.lets mac ++ fillAll (a.var lv) false rest := by
  have e : presetHead helpers mac ++ rest =
      [tkId "let", tkId "path", tkP '=', tkP '$', tkId "path", tkP ';',
       tkId "let", tkId "line", tkP '=', tkP '$', tkId "line", tkP ';',
       tkId "let", tkId "col", tkP '=', tkP '$', tkId "col", tkP ';',
       tkId "let", tkId "expr", tkP '='] ++ (helpers ++ (tkP ':' :: tkP ':' :: tkId mac :: tkP '!' ::
        tkParen (tkVar "source") :: tkP ';' :: rest)) := by
    simp [presetHead, tkLet, tkVar]
  rw [e]
  simp [fillAll, fillAll_append _ hh, TT.fill, TT.words, TT.isPunct, tkId, tkP, tkParen, tkVar, Spot.var,
    Spot.lets, ha, Delim.opening, Delim.closing]

/-- The spelling of a method with `w x` for every `$x`. -/
def methodWords (w : String → List String) (m : Method) : List String :=
  wordsOf m.lead ++ fillAll w false m.template

theorem spells_default {helpers : List TT} (hh : NoDollars helpers) (a : Spot)
    (ha : a.helpers = wordsOf helpers) (lv : Option (List String)) (consume : Bool) :
    methodWords (a.var lv) (Method.parse consume (defaultMethodTokens helpers)) = 
      [".", "inspect_err", "(", "|", "e", "|", "{"] ++ a.lets "excerpted_pretty_stringify" ++
      [":", ":", "std", ":", ":", "eprintln", "!", "(",
       "\"[{path}:{line}:{col}] {e:?}\n{expr}\"", ")", ";", "}", ")"] := by
  have t : Method.parse consume (defaultMethodTokens helpers)
      = .insert .callSite (defaultMethodTokens helpers).tail false := by cases consume <;> rfl
  rw [t, methodWords]
  simp only [Method.template, Method.lead, defaultMethodTokens, List.append_assoc]
  simp [fillAll, TT.fill, TT.words, TT.isPunct, tkId, tkP, tkParen, tkBrace, tkStr, tkAbs, tkVar, tkLet,
    wordsOf, Delim.opening, Delim.closing, Lit.spelling, fill_head hh a ha, Spot.var]

theorem spells_log {helpers : List TT} (hh : NoDollars helpers) (a : Spot)
    (ha : a.helpers = wordsOf helpers) (lv : List String) (consume : Bool) :
    methodWords (a.var (some lv)) (Method.parse consume (logMethodTokens helpers)) = logText lv a := by
  have t : Method.parse consume (logMethodTokens helpers)
      = .insert .callSite (logMethodTokens helpers).tail false := by cases consume <;> rfl
  rw [t, methodWords]
  simp only [Method.template, Method.lead, logMethodTokens, List.append_assoc]
  simp [fillAll, TT.fill, TT.words, TT.isPunct, tkId, tkP, tkParen, tkBrace, tkStr, tkAbs, tkVar, tkLet,
    wordsOf, Delim.opening, Delim.closing, Lit.spelling, fill_head hh a ha, logText, Spot.var]

theorem spells_anyhow {helpers : List TT} (hh : NoDollars helpers) (a : Spot)
    (ha : a.helpers = wordsOf helpers) (lv : Option (List String)) (consume : Bool) :
    methodWords (a.var lv) (Method.parse consume (anyhowMethodTokens helpers)) = contextText "with_context" a := by
  have t : Method.parse consume (anyhowMethodTokens helpers)
      = .insert .callSite (anyhowMethodTokens helpers).tail false := by cases consume <;> rfl
  rw [t, methodWords]
  simp only [Method.template, Method.lead, anyhowMethodTokens, List.append_assoc]
  simp [fillAll, TT.fill, TT.words, TT.isPunct, tkId, tkP, tkParen, tkBrace, tkStr, tkAbs, tkVar, tkLet,
    wordsOf, Delim.opening, Delim.closing, Lit.spelling, fill_head hh a ha, contextText]

theorem spells_eyre {helpers : List TT} (hh : NoDollars helpers) (a : Spot)
    (ha : a.helpers = wordsOf helpers) (lv : Option (List String)) (consume : Bool) :
    methodWords (a.var lv) (Method.parse consume (eyreMethodTokens helpers)) = contextText "wrap_err_with" a := by
  have t : Method.parse consume (eyreMethodTokens helpers)
      = .insert .callSite (eyreMethodTokens helpers).tail false := by cases consume <;> rfl
  rw [t, methodWords]
  simp only [Method.template, Method.lead, eyreMethodTokens, List.append_assoc]
  simp [fillAll, TT.fill, TT.words, TT.isPunct, tkId, tkP, tkParen, tkBrace, tkStr, tkAbs, tkVar, tkLet,
    wordsOf, Delim.opening, Delim.closing, Lit.spelling, fill_head hh a ha, contextText]

theorem spells_tracing {helpers : List TT} (hh : NoDollars helpers) (a : Spot)
    (ha : a.helpers = wordsOf helpers) (lv : List String) (consume : Bool) :
    methodWords (a.var (some lv)) (Method.parse consume (tracingMethodTokens helpers)) = tracingText lv a := by
  have t : Method.parse consume (tracingMethodTokens helpers)
      = .insert .callSite (tracingMethodTokens helpers).tail false := by cases consume <;> rfl
  rw [t, methodWords]
  simp only [Method.template, Method.lead, tracingMethodTokens, List.append_assoc]
  simp [fillAll, TT.fill, TT.words, TT.isPunct, tkId, tkP, tkParen, tkBrace, tkStr, tkAbs, tkVar, tkLet,
    wordsOf, Delim.opening, Delim.closing, Lit.spelling, fill_head hh a ha, tracingText, Spot.var]

theorem spells_hook (a : Spot) (lv : Option (List String)) (consume : Bool) :
    methodWords (a.var lv) (Method.parse consume hookMethodTokens) =
      [".", "hook", "(", "|", "|", "{", "$hooq_meta", "}", ")"] := by
  have t : Method.parse consume hookMethodTokens = .insert .callSite hookMethodTokens.tail false := by
    cases consume <;> rfl
  rw [t, methodWords]
  simp [Method.template, Method.lead, hookMethodTokens, fillAll, TT.fill, TT.words, TT.isPunct, tkId, tkP,
    tkParen, tkBrace, tkVar, wordsOf, Delim.opening, Delim.closing, Spot.var]

theorem spells_empty (a : Spot) (lv : Option (List String)) (consume : Bool) :
    methodWords (a.var lv) (Method.parse consume emptyMethodTokens) = ["$expr"] := by
  have t : Method.parse consume emptyMethodTokens = .replace emptyMethodTokens false := by
    cases consume <;> rfl
  rw [t, methodWords]
  simp [Method.template, Method.lead, emptyMethodTokens, fillAll, TT.isPunct, tkId, tkP, tkVar, wordsOf,
    Spot.var]

/-- The method of the built-in flavors at a path. -/
def presetTokens (helpers : List TT) (q : List String) : List TT :=
  if q.head? = some "empty" then emptyMethodTokens
  else if q.head? = some "hook" then hookMethodTokens
  else if q.head? = some "log" then logMethodTokens helpers
  else if q.head? = some "anyhow" then anyhowMethodTokens helpers
  else if q.head? = some "eyre" ∨ q.head? = some "color_eyre" then eyreMethodTokens helpers
  else if q.head? = some "tracing" then tracingMethodTokens helpers
  else defaultMethodTokens helpers

/-- A flavor is what a row of the table says. -/
def Row (helpers : List TT) (ft : PresetFeatures) (q : List String) (f : Flavor) : Prop :=
  ∃ doc ∈ presetDocs, doc.path = q ∧ doc.feature ft = true ∧ Documented doc f ∧
    (∃ consume, f.settings.method = Method.parse consume (presetTokens helpers q)) ∧
    ∀ a : Spot, a.helpers = wordsOf helpers → methodWords (a.var doc.level) f.settings.method = doc.text a

theorem documented_plain {doc : PresetDoc} {f : Flavor} (he : doc.path ≠ ["empty"]) (hl : doc.level = none)
    {c : Bool} {hs : List TT} {u : List Path} {m : Method}
    (hf : f.settings = { defaultSettings c hs with traitUses := u, method := m })
    (hu : List.Forall₂ Path.IsAbs u doc.uses) : Documented doc f := by
  constructor <;> simp [hf, defaultSettings, he, hl, hu]

theorem documented_level {doc : PresetDoc} {f : Flavor} (he : doc.path ≠ ["empty"]) {l : List String}
    (hl : doc.level = some l) {c : Bool} {hs : List TT} {m : Method}
    (hf : f.settings = { defaultSettings c hs with method := m, bindings := [("level", absPathValue l)] })
    (hu : doc.uses = []) : Documented doc f := by
  have := text_absPathValue l
  constructor <;> simp [hf, defaultSettings, he, hl, hu, absPathValue, isAbs_absPath] at this ⊢
  exact this

theorem preset_rows {consume : Bool} {helpers : List TT} (hh : NoDollars helpers) {ft : PresetFeatures}
    {q : List String} {f : Flavor} (hf : Reaches (presetFlavors consume helpers ft) q f) :
    Row helpers ft q f := by
  have lvl : ∀ {k : String} {m : Method} {ds : List (String × String)} {dflt : String} {n : String}
      {path : List String} {g : Flavor},
      Reaches [(n, levelFlavor (defaultSettings consume helpers) m k ds dflt)] path g →
      ∃ sub l, path = n :: sub ∧ ((sub = [] ∧ l = dflt) ∨ ∃ s, sub = [s] ∧ (s, l) ∈ ds) ∧
        g.settings = { defaultSettings consume helpers with
          method := m, bindings := [("level", absPathValue [k, "Level", l])] } := by
    intro k m ds dflt n path g h
    cases h with
    | top h =>
      simp only [List.mem_singleton, Prod.mk.injEq] at h
      obtain ⟨rfl, rfl⟩ := h
      exact ⟨[], dflt, rfl, .inl ⟨rfl, rfl⟩, rfl⟩
    | sub h h2 =>
      simp only [List.mem_singleton, Prod.mk.injEq] at h
      obtain ⟨rfl, rfl⟩ := h
      simp only [levelFlavor, Flavor.subs] at h2
      cases h2 with
      | top h =>
        obtain ⟨⟨s, l⟩, h3, h4⟩ := List.mem_map.1 h
        simp only [Prod.mk.injEq] at h4
        obtain ⟨rfl, rfl⟩ := h4
        exact ⟨[s], l, rfl, .inr ⟨s, rfl, h3⟩, rfl⟩
      | sub h h5 =>
        obtain ⟨⟨s, l⟩, h3, h4⟩ := List.mem_map.1 h
        simp only [Prod.mk.injEq] at h4
        obtain ⟨rfl, rfl⟩ := h4
        cases h5 with
        | top h => simp [Flavor.subs] at h
        | sub h _ => simp [Flavor.subs] at h
  have app : ∀ {a b : FlavorMap}, Reaches (a ++ b) q f → Reaches a q f ∨ Reaches b q f := by
    intro a b h
    cases h with
    | top h => rcases List.mem_append.1 h with h | h <;> [left; right] <;> exact .top h
    | sub h h2 => rcases List.mem_append.1 h with h | h <;> [left; right] <;> exact .sub h h2
  have one : ∀ {n : String} {s : Settings}, Reaches [(n, Flavor.mk s [])] q f → q = [n] ∧ f.settings = s := by
    intro n s h
    cases h with
    | top h =>
      simp only [List.mem_singleton, Prod.mk.injEq] at h
      obtain ⟨rfl, rfl⟩ := h
      exact ⟨rfl, rfl⟩
    | sub h h2 =>
      simp only [List.mem_singleton, Prod.mk.injEq] at h
      obtain ⟨rfl, rfl⟩ := h
      cases h2 with
      | top h => simp [Flavor.subs] at h
      | sub h _ => simp [Flavor.subs] at h
  have non : ¬ Reaches ([] : FlavorMap) q f := by
    intro h
    cases h with
    | top h => simp at h
    | sub h _ => simp at h
  have cons : ∀ {x y : String × Flavor} {l : FlavorMap}, Reaches (x :: y :: l) q f →
      Reaches [x] q f ∨ Reaches (y :: l) q f := fun h => app (a := [_]) h
  rw [presetFlavors] at hf
  rcases app hf with hf | hf
  · rcases app hf with hf | hf
    · rcases app hf with hf | hf
      · rcases app hf with hf | hf
        · rcases cons hf with hf | hf
          · obtain ⟨rfl, h⟩ := one hf
            refine ⟨presetDocs[0], by simp [presetDocs], rfl, rfl,
              documented_plain (c := consume) (hs := helpers) (by simp [presetDocs]) rfl h .nil, ⟨consume, by rw [h]; rfl⟩, ?_⟩
            intro a ha
            rw [h]
            exact spells_default hh a ha _ _
          · rcases cons hf with hf | hf
            · obtain ⟨rfl, h⟩ := one hf
              refine ⟨presetDocs[1], by simp [presetDocs], rfl, rfl, ?_, ⟨consume, by rw [h]; rfl⟩, ?_⟩
              · constructor <;> simp [h, emptySettings, presetDocs]
              · intro a _
                rw [h]
                exact spells_empty a _ _
            · obtain ⟨rfl, h⟩ := one hf
              refine ⟨presetDocs[2], by simp [presetDocs], rfl, rfl,
                documented_plain (by simp [presetDocs]) rfl h .nil, ⟨consume, by rw [h]; rfl⟩, ?_⟩
              intro a _
              rw [h]
              exact spells_hook a _ _
        · split at hf
          · rename_i hft
            obtain ⟨sub, l, rfl, h1, h2⟩ := lvl hf
            refine ⟨logDoc sub l, ?_, rfl, hft, documented_level (by simp [logDoc]) rfl h2 rfl, ⟨consume, by rw [h2]; rfl⟩, ?_⟩
            · simp only [List.mem_cons, Prod.mk.injEq, List.not_mem_nil, or_false] at h1
              rcases h1 with ⟨rfl, rfl⟩ | ⟨s, rfl, ⟨rfl, rfl⟩ | ⟨rfl, rfl⟩ | ⟨rfl, rfl⟩ | ⟨rfl, rfl⟩ | ⟨rfl, rfl⟩⟩ <;>
                simp [presetDocs]
            · intro a ha
              rw [h2]
              exact spells_log hh a ha _ _
          · exact absurd hf non
      · split at hf
        · rename_i hft
          obtain ⟨rfl, h⟩ := one hf
          refine ⟨presetDocs[9], by simp [presetDocs], rfl, hft, documented_plain (by simp [presetDocs]) rfl h
            (.cons (isAbs_absPath _) .nil), ⟨consume, by rw [h]; rfl⟩, ?_⟩
          intro a ha
          rw [h]
          exact spells_anyhow hh a ha _ _
        · exact absurd hf non
    · split at hf
      · rename_i hft
        rcases cons hf with hf | hf
        · obtain ⟨rfl, h⟩ := one hf
          refine ⟨presetDocs[10], by simp [presetDocs], rfl, hft, documented_plain (by simp [presetDocs]) rfl h
            (.cons (isAbs_absPath _) (.cons (isAbs_absPath _) .nil)), ⟨consume, by rw [h]; rfl⟩, ?_⟩
          intro a ha
          rw [h]
          exact spells_eyre hh a ha _ _
        · obtain ⟨rfl, h⟩ := one hf
          refine ⟨presetDocs[11], by simp [presetDocs], rfl, hft, documented_plain (by simp [presetDocs]) rfl h
            (.cons (isAbs_absPath _) (.cons (isAbs_absPath _) .nil)), ⟨consume, by rw [h]; rfl⟩, ?_⟩
          intro a ha
          rw [h]
          exact spells_eyre hh a ha _ _
      · exact absurd hf non
  · split at hf
    · rename_i hft
      obtain ⟨sub, l, rfl, h1, h2⟩ := lvl hf
      refine ⟨tracingDoc sub l, ?_, rfl, hft, documented_level (by simp [tracingDoc]) rfl h2 rfl, ⟨consume, by rw [h2]; rfl⟩, ?_⟩
      · simp only [List.mem_cons, Prod.mk.injEq, List.not_mem_nil, or_false] at h1
        rcases h1 with ⟨rfl, rfl⟩ | ⟨s, rfl, ⟨rfl, rfl⟩ | ⟨rfl, rfl⟩ | ⟨rfl, rfl⟩ | ⟨rfl, rfl⟩ | ⟨rfl, rfl⟩⟩ <;>
          simp [presetDocs]
      · intro a ha
        rw [h2]
        exact spells_tracing hh a ha _ _
    · exact absurd hf non

/-! ## C58 -/

/-- The paths of the table are distinct, so a path has at most one row. -/
theorem presetDocs_nodup : (presetDocs.map (·.path)).Nodup := by
  simp [presetDocs, logDoc, tracingDoc]

/-- C58, the flavors: exactly the documented paths exist, given the cargo features. -/
theorem C58_known {consume : Bool} {helpers : List TT} (hh : NoDollars helpers) {ft : PresetFeatures}
    {q : List String} : (∃ f, Reaches (presetFlavors consume helpers ft) q f) ↔
      ∃ doc ∈ presetDocs, doc.path = q ∧ doc.feature ft = true := by
  constructor
  · rintro ⟨f, hf⟩
    obtain ⟨doc, h1, h2, h3, -⟩ := preset_rows hh hf
    exact ⟨doc, h1, h2, h3⟩
  · rintro ⟨doc, h1, rfl, h3⟩
    obtain ⟨l, a, e, t⟩ := ft
    have key : ∀ l a e t, doc.feature ⟨l, a, e, t⟩ = true →
        getFlavorInner (presetFlavors consume helpers ⟨l, a, e, t⟩) doc.path ≠ none := by
      intro l a e t h3
      simp only [presetDocs, List.mem_cons, List.not_mem_nil, or_false] at h1
      rcases h1 with rfl | rfl | rfl | rfl | rfl | rfl | rfl | rfl | rfl | rfl | rfl | rfl | rfl | rfl | rfl |
        rfl | rfl | rfl <;> simp only [logDoc, tracingDoc] at h3 ⊢ <;>
        cases l <;> cases a <;> cases e <;> cases t <;> first | exact absurd h3 Bool.false_ne_true | (intro hc; cases hc)
    cases hg : getFlavorInner (presetFlavors consume helpers ⟨l, a, e, t⟩) doc.path with
    | none => exact absurd hg (key _ _ _ _ h3)
    | some f => exact ⟨f, (inner_iff (uniq_presets _ _ _) _ _).1 hg⟩

/-- C58, the settings: every built-in flavor has the documented settings. -/
theorem C58_settings {consume : Bool} {helpers : List TT} (hh : NoDollars helpers) {ft : PresetFeatures}
    {q : List String} {f : Flavor} (hf : Reaches (presetFlavors consume helpers ft) q f)
    {doc : PresetDoc} (hd : doc ∈ presetDocs) (hq : doc.path = q) : Documented doc f := by
  obtain ⟨doc', h1, h2, -, h4, -⟩ := preset_rows hh hf
  obtain rfl : doc' = doc := List.inj_on_of_nodup_map presetDocs_nodup h1 hd (h2.trans hq.symm)
  exact h4

/-- The selected flavor is the built-in one of that name. -/
structure Builtin (env : Env) (args : List Meta) (helpers : List TT) (doc : PresetDoc) : Prop where
  row : doc ∈ presetDocs
  path : doc.path = selectedFlavor args
  noDollar : NoDollars helpers
  stored : ∃ m consume ft f, env.store = .ok m ∧ UniqMap m ∧
    Reaches (presetFlavors consume helpers ft) (selectedFlavor args) f ∧ Reaches m (selectedFlavor args) f

theorem Reaches.functional {m : FlavorMap} (hm : UniqMap m) {q : List String} {f g : Flavor}
    (h : Reaches m q f) (h' : Reaches m q g) : f = g := by
  rw [← inner_iff hm] at h h'
  exact Option.some.inj (h.symm.trans h')

theorem Builtin.settings {env : Env} {args : List Meta} {helpers : List TT} {doc : PresetDoc}
    (hp : Builtin env args helpers doc) {s : Settings} (hs : rootSettings env args = .ok s) :
    ∃ f, Documented doc f ∧ (s.targets = f.settings.targets ∧ s.tailIdents = f.settings.tailIdents ∧
      s.ignoreIdents = f.settings.ignoreIdents ∧ s.resultTypes = f.settings.resultTypes ∧
      s.hookInMacros = f.settings.hookInMacros ∧ s.method = f.settings.method ∧
      s.bindings = f.settings.bindings) ∧ SelfContained f.settings ∧
      ∀ a : Spot, a.helpers = wordsOf helpers → methodWords (a.var doc.level) f.settings.method = doc.text a := by
  obtain ⟨h1, h2, h3, m, consume, ft, f, h4, h5, h6, h7⟩ := hp
  obtain ⟨g, h8, h9⟩ := C41_selected h4 h5 hs
  obtain rfl := h8.functional h5 h7
  obtain ⟨doc', k1, k2, -, k4, -, k5⟩ := preset_rows h3 h6
  obtain rfl : doc' = doc := List.inj_on_of_nodup_map presetDocs_nodup k1 h1 (k2.trans h2.symm)
  exact ⟨_, k4, by simp [h9], (h6.all (preset_selfContained h3 ft)).all_settings, k5⟩

theorem Builtin.method {env : Env} {args : List Meta} {helpers : List TT} {doc : PresetDoc}
    (hp : Builtin env args helpers doc) {s : Settings} (hs : rootSettings env args = .ok s) :
    ∃ consume, s.method = Method.parse consume (presetTokens helpers doc.path) := by
  obtain ⟨h1, h2, h3, m, consume, ft, f, h4, h5, h6, h7⟩ := hp
  obtain ⟨g, h8, h9⟩ := C41_selected h4 h5 hs
  obtain rfl := h8.functional h5 h7
  obtain ⟨doc', k1, k2, -, -, ⟨c, k4⟩, -⟩ := preset_rows h3 h6
  exact ⟨c, by rw [h9, h2]; exact k4⟩

theorem Builtin.nodup {env : Env} {args : List Meta} {helpers : List TT} {doc : PresetDoc}
    (hp : Builtin env args helpers doc) {s : Settings} (hs : rootSettings env args = .ok s) :
    s.bindings.keys.Nodup := by
  obtain ⟨f, h1, ⟨-, -, -, -, -, -, e⟩, -⟩ := hp.settings hs
  rw [e]
  cases hl : doc.level with
  | none => simp [h1.noLevel hl, AMap.keys]
  | some l =>
    obtain ⟨v, p, h2, -⟩ := h1.level l hl
    simp [h2, AMap.keys]

theorem lastSet_none {α β : Type} {f : α → Option β} {l : List α} (h : ∀ a ∈ l, f a = none) :
    lastSet f l = none := by
  have : l.filterMap f = [] := by
    rw [List.filterMap_eq_nil_iff]; exact h
  simp [lastSet, this]

theorem mem_attrsOver {up : List Data} {a : Attr} (h : a ∈ attrsOver up) : ∃ d ∈ up, a ∈ d.seen := by
  simpa [attrsOver] using h

theorem nodeIgnore_keep {env : Env} {l : List Attr} (h : ∀ a ∈ l, ignoreOf env a = .keep) :
    nodeIgnore env l = none := by
  rw [nodeIgnore]
  have : ∀ cur, l.foldl (fun cur a => (ignoreOf env a).apply cur) cur = cur := by
    induction l with
    | nil => intro cur; rfl
    | cons a l ih =>
      intro cur
      rw [List.foldl_cons, h a (by simp)]
      exact ih (fun b hb => h b (by simp [hb])) cur
  exact this none

theorem PlainSettings.at {env : Env} {up : List Data} (h : PlainSettings env up) (s : Settings) :
    targetsAt env s up = s.targets ∧ tailIdentsAt env s up = s.tailIdents ∧
    ignoreAt env s up = s.ignoreIdents ∧ resultTypesAt env s up = s.resultTypes := by
  have h' : ∀ a ∈ attrsOver up, targetsOf env a = none ∧ tailIdentsOf env a = none ∧
      ignoreOf env a = .keep ∧ resultTypesOf env a = none := by
    intro a ha
    obtain ⟨d, hd, ha⟩ := mem_attrsOver ha
    exact h d hd a ha
  refine ⟨?_, ?_, ?_, ?_⟩
  · rw [targetsAt, lastSet_none fun a ha => (h' a ha).1]; rfl
  · rw [tailIdentsAt, lastSet_none fun a ha => (h' a ha).2.1]; rfl
  · have : (up.findSome? fun d => nodeIgnore env d.seen) = none := by
      rw [List.findSome?_eq_none_iff]
      exact fun d hd => nodeIgnore_keep fun a ha => (h d hd a ha).2.2.1
    rw [ignoreAt, this]; rfl
  · rw [resultTypesAt, lastSet_none fun a ha => (h' a ha).2.2.2]; rfl

theorem endsIn_single (p : Option Path) (n : String) : endsIn p [n] = true ↔ CalleeEnds p n := by
  cases p with
  | none => simp [endsIn, CalleeEnds]
  | some p => cases h : p.segs.getLast? <;> simp [endsIn, CalleeEnds, h]

theorem resultAt_plain {env : Env} {s : Settings} {up : List Data} (h : resultTypesAt env s up = ["Result"]) :
    resultAt env s up = true ↔ InResultFn up := by
  cases hf : innermostFn up with
  | none => simp [resultAt, outputAt, hf, InResultFn]
  | some f => rw [resultAt_iff hf, h]; simp [InResultFn, hf]

/-- The value a built-in flavor wants hooked at a `return` or at the end of a function or
closure. -/
def WantedValue (up : List Data) (callee : Option Path) : Prop :=
  CalleeEnds callee "Err" ∨ InResultFn up ∧ ¬ CalleeEnds callee "Ok"

/-- C58 for `?`: under a built-in flavor other than `empty` whose settings no attribute
overrides, every reached `?` is hooked that is not skipped. -/
theorem C58_question {env : Env} {args : List Meta} {s : Settings} {i i' : Item}
    {uses : List Path} {helpers : List TT} {doc : PresetDoc} (hp : Builtin env args helpers doc)
    (he : doc.path ≠ ["empty"]) (hs : rootSettings env args = .ok s)
    (h : hooqImpls env args i = .ok (uses, i')) {p : List Nat} {d : Data} {up : List Data}
    {q : Span} {b : Bool} (hu : i.chain p = some (d :: up)) (hq : d.tag = .question q b)
    (hr : reached env s (d :: up) = true) (hpl : PlainSettings env (d :: up)) :
    ∃ n' k', i'.tree.sub p = some n' ∧ n'.kids = [k'] ∧ (k'.marks ≠ [] ↔ ¬ Suppressed (d :: up)) := by
  obtain ⟨n', k', h1, h2, h3⟩ := C56_question hs (hp.nodup hs) h hu hq hr
  refine ⟨n', k', h1, h2, ?_⟩
  obtain ⟨f, h4, ⟨e1, -⟩, -⟩ := hp.settings hs
  rw [h3, (hpl.at _).1, e1, h4.targets]
  simp [he]

/-- C58 for `return`: hooked exactly if not skipped and the value is an `Err(..)`, or the
function returns a `Result` and the value is no `Ok(..)`. -/
theorem C58_return {env : Env} {args : List Meta} {s : Settings} {i i' : Item}
    {uses : List Path} {helpers : List TT} {doc : PresetDoc} (hp : Builtin env args helpers doc)
    (he : doc.path ≠ ["empty"]) (hs : rootSettings env args = .ok s)
    (h : hooqImpls env args i = .ok (uses, i')) {p : List Nat} {d : Data} {up : List Data}
    (hu : i.chain p = some (d :: up)) (hq : d.tag = .ret)
    (hr : reached env s (d :: up) = true) (hpl : PlainSettings env (d :: up)) :
    ∃ n', i'.tree.sub p = some n' ∧ ∀ k' ∈ n'.kids, (k'.marks ≠ [] ↔
      WantedValue (d :: up) k'.bare.callee ∧ ¬ Suppressed (d :: up)) := by
  obtain ⟨n', h1, h2⟩ := C56_return hs (hp.nodup hs) h hu hq hr
  refine ⟨n', h1, fun k' hk => ?_⟩
  obtain ⟨f, h4, ⟨e1, e2, e3, e4, -⟩, -⟩ := hp.settings hs
  obtain ⟨g1, g2, g3, g4⟩ := hpl.at s
  simp only [e1, e2, e3, e4, h4.targets, h4.tailIdents, h4.ignoreIdents, h4.resultTypes, if_neg he] at g1 g2 g3 g4
  rw [h2 k' hk, g1, returnWanted, g2, g3, WantedValue, ← resultAt_plain g4, ← endsIn_single, ← endsIn_single]
  simp

/-- C58 for tail expressions: the same at the end of a function or closure; elsewhere
only an `Err(..)` is hooked. -/
theorem C58_tail {env : Env} {args : List Meta} {s : Settings} {i i' : Item}
    {uses : List Path} {helpers : List TT} {doc : PresetDoc} (hp : Builtin env args helpers doc)
    (he : doc.path ≠ ["empty"]) (hs : rootSettings env args = .ok s)
    (h : hooqImpls env args i = .ok (uses, i')) {p : List Nat} {d : Data} {up : List Data}
    (hu : i.chain p = some (d :: up)) {tk : TailKind} (hq : d.edge.tail = some tk)
    (hm : d.mode ≠ .untouched) (hr : reached env s (d :: up) = true) (hpl : PlainSettings env (d :: up)) :
    ∃ n', i'.tree.sub p = some n' ∧ (n'.tailMarks ≠ [] ↔
      (if tk = .fnTail then WantedValue (d :: up) n'.bare.callee else CalleeEnds n'.bare.callee "Err") ∧
        ¬ Suppressed (d :: up)) := by
  obtain ⟨n', h1, h2⟩ := C56_tail hs (hp.nodup hs) h hu hq hm hr
  refine ⟨n', h1, ?_⟩
  obtain ⟨f, h4, ⟨e1, e2, e3, e4, -⟩, -⟩ := hp.settings hs
  obtain ⟨g1, g2, g3, g4⟩ := hpl.at s
  simp only [e1, e2, e3, e4, h4.targets, h4.tailIdents, h4.ignoreIdents, h4.resultTypes, if_neg he] at g1 g2 g3 g4
  rw [h2, g1, tailWanted, g2, g3, WantedValue, ← resultAt_plain g4, ← endsIn_single, ← endsIn_single]
  cases tk <;> simp

/-- C58, macros: without an attribute that says otherwise, the inside of a macro is
reached exactly if the flavor is not `empty` (and the macro is reached). -/
theorem C58_macros {env : Env} {args : List Meta} {s : Settings} {helpers : List TT} {doc : PresetDoc}
    (hp : Builtin env args helpers doc) (hs : rootSettings env args = .ok s) {d m : Data} {up : List Data}
    (hm : m.tag = .mac) (hv : d.edge.visit = true)
    (hpl : ∀ e ∈ m :: up, ∀ a ∈ e.seen, macrosOf env a = none) :
    reached env s (d :: m :: up) = true ↔ doc.path ≠ ["empty"] ∧ reached env s (m :: up) = true := by
  obtain ⟨f, h4, ⟨-, -, -, -, e5, -⟩, -⟩ := hp.settings hs
  have e : macrosAt env s (m :: up) = f.settings.hookInMacros := by
    rw [macrosAt, lastSet_none]
    · exact e5
    · intro a ha
      obtain ⟨e, he, ha⟩ := mem_attrsOver ha
      exact hpl e he a ha
  rw [reached]
  simp only [hv, hm, e, Bool.true_and, Bool.and_eq_true, bne_self_eq_false, Bool.false_or, ← h4.hookInMacros]

/-- C58, the text: a hook under a built-in flavor is spelled as documented, with the
position of its anchor. -/
theorem C58_text {env : Env} {args : List Meta} {s : Settings} {i i' : Item}
    {uses : List Path} {helpers : List TT} {doc : PresetDoc} (hp : Builtin env args helpers doc)
    (hs : rootSettings env args = .ok s)
    (h : hooqImpls env args i = .ok (uses, i')) {p : List Nat} {d : Data} {up : List Data}
    (hu : i.chain p = some (d :: up)) (hr : reached env s (d :: up) = true)
    (hpl : PlainMethod env (d :: up)) :
    ∃ n', i'.tree.sub p = some n' ∧ ∀ m ∈ n'.marks, ∃ sp, IsAnchor (d :: up) n' m.1.kind sp ∧
      wordsOf m.1.toks = doc.text ⟨sp.file, sp.line, sp.col, wordsOf helpers⟩ := by
  obtain ⟨n', h1, h2⟩ := hook_text hs (hp.nodup hs) h hu hr
  refine ⟨n', h1, fun m hm => ?_⟩
  obtain ⟨sp, c, out, h3, -, h5, h6⟩ := h2 m hm
  refine ⟨sp, h3, ?_⟩
  have hsub : ∀ e ∈ targetUp m.1.kind (d :: up), e ∈ d :: up := by
    intro e he
    cases hk : m.1.kind <;> rw [hk] at he
    · exact List.mem_of_mem_tail he
    · exact List.mem_of_mem_tail he
    · exact he
  generalize targetUp m.1.kind (d :: up) = tup at h5 h6 hsub
  have hno : ∀ a ∈ attrsOver tup, methodOf env a = none ∧ bindingOf env "level" a = none := by
    intro a ha
    obtain ⟨e, he, ha⟩ := mem_attrsOver ha
    exact hpl e (hsub e he) a ha
  obtain ⟨f, g1, ⟨-, -, -, -, -, e6, e7⟩, ⟨lv, g2, g3⟩, g4⟩ := hp.settings hs
  have em : methodAt env s tup = f.settings.method := by
    rw [methodAt, lastSet_none fun a ha => (hno a ha).1]; exact e6
  have eb : bindingAt env s "level" tup = f.settings.bindings.get? "level" := by
    rw [bindingAt, lastSet_none fun a ha => (hno a ha).2, e7]; rfl
  rw [em] at h5 h6
  rw [h6, wordsOf_append, wordsOf_setSpan, ← g4 ⟨sp.file, sp.line, sp.col, wordsOf helpers⟩ rfl, methodWords]
  congr 1
  refine h5.fill (P := presetVars lv) ?_ g2
  rintro x o hx ho
  have nm : ∀ {v : MetaVar} {x : String}, MetaVar.ofString x = some v → v.Named x := fun h => (metaVar_named _ _).1 h
  rcases hx with hx | ⟨hl, rfl⟩
  · simp only [List.mem_cons, List.not_mem_nil, or_false] at hx
    rcases hx with rfl | rfl | rfl | rfl | rfl | rfl
    · rw [varText_named (v := .path) (nm rfl)] at ho
      subst ho
      simp [Spot.var, wordsOf, TT.words, Lit.spelling, siteAt]
    · rw [varText_named (v := .line) (nm rfl)] at ho
      subst ho
      simp [Spot.var, wordsOf, TT.words, Lit.spelling, siteAt]
    · rw [varText_named (v := .column) (nm rfl)] at ho
      subst ho
      simp [Spot.var, wordsOf, TT.words, Lit.spelling, siteAt]
    · rw [varText_named (v := .source) (nm rfl)] at ho
      subst ho
      simp [Spot.var, wordsOf, TT.words]
    · rw [varText_named (v := .expr) (nm rfl)] at ho
      subst ho
      simp [Spot.var, wordsOf, TT.words]
    · rw [varText_named (v := .hooqMeta) (nm rfl)] at ho
      obtain ⟨l, g, -, -, rfl⟩ := ho
      simp [Spot.var, wordsOf, TT.words]
  · have hb := g3 hl
    cases hdl : doc.level with
    | none => rw [g1.noLevel hdl] at hb; exact absurd rfl hb
    | some l =>
      obtain ⟨v, q, k1, k2, ⟨k3, k4, k5⟩, -⟩ := g1.level l hdl
      have no : ∀ m, ¬ MetaVar.Named m "level" := by
        intro m hm
        have := (metaVar_named _ _).2 hm
        cases this
      cases ho with
      | binding _ hv =>
        simp only [siteAt, eb, k1, AMap.get?, if_true, Option.some.injEq] at hv
        subst hv
        subst k4
        simp only [wordsOf, TT.words, Value.words, k2, k3, if_true, List.append_nil, Spot.var]
        simp
      | line hn | column hn | path hn | file hn | expr hn | source hn | count hn | fnName hn | fnSig hn
      | bindings hn | hooqMeta hn | soFar hn => exact absurd hn (no _)

/-- C58, imports: the traits named in the root attribute come first, then exactly the
documented ones. -/
theorem C58_uses {env : Env} {args : List Meta} {i i' : Item}
    {uses : List Path} {helpers : List TT} {doc : PresetDoc} (hp : Builtin env args helpers doc)
    (h : hooqImpls env args i = .ok (uses, i')) :
    ∃ u, uses = args.flatMap (usesGiven env) ++ u ∧ List.Forall₂ Path.IsAbs u doc.uses := by
  obtain ⟨h1, h2, h3, m, consume, ft, f, h4, h5, h6, h7⟩ := hp
  obtain ⟨g, h8, h9⟩ := C41_uses h4 h5 h
  obtain rfl := h8.functional h5 h7
  exact ⟨_, h9, (C58_settings h3 h6 h1 h2).traitUses⟩

section
open Ex
set_option maxRecDepth 10000

/-- `#[hooq(log::warn)]` on `fn f() -> Result { m!(w?, 1); Ok(k) }`. -/
def Ex.logged : Item :=
  .fn [] { ident := "f", output := result, text := "fn f () -> Result" }
    [.mac [] (mac 11) true, .expr (call "Ok" [var "k" 12] 12) false]

/-- Its root attribute. -/
def Ex.logArgs : List Meta := [.path (Path.ofIdents ["log", "warn"])]

theorem Ex.logged_builtin : Builtin env logArgs [tkId "helpers"] (logDoc ["warn"] "Warn") := by
  refine ⟨by simp [presetDocs], rfl, by simp [NoDollars, TT.NoDollar, tkId], ?_⟩
  have h : Reaches (presetFlavors false [tkId "helpers"] ⟨true, true, true, true⟩) ["log", "warn"] _ :=
    (inner_iff (uniq_presets _ _ _) _ _).1 rfl
  exact ⟨_, false, ⟨true, true, true, true⟩, _, rfl, uniq_presets _ _ _, h, h⟩

example : ∃ s i' n' m d up e up' q, rootSettings env logArgs = .ok s ∧
    hooqImpls env logArgs logged = .ok ([], i') ∧ logged.chain [0, 0] = some (e :: up') ∧
    logged.chain [0, 0, 0] = some (d :: up) ∧ e.tag = .question q false ∧
    reached env s (d :: up) = true ∧ reached env s (e :: up') = true ∧
    PlainMethod env (d :: up) ∧ PlainSettings env (e :: up') ∧ ¬ Suppressed (e :: up') ∧
    i'.tree.sub [0, 0, 0] = some n' ∧ n'.marks = [m] ∧
    wordsOf m.1.toks = logText ["log", "Level", "Warn"] ⟨"src/a.rs", 11, 9, ["helpers"]⟩ := by
  refine ⟨_, _, _, _, _, _, _, _, _, rfl, rfl, rfl, rfl, rfl, rfl, rfl, ?_, ?_, ?_, rfl, rfl, rfl⟩
  · intro d hd a ha
    simp only [List.mem_cons, List.not_mem_nil, or_false] at hd
    rcases hd with rfl | rfl | rfl | rfl <;> simp [Data.seen] at ha
  · intro d hd a ha
    simp only [List.mem_cons, List.not_mem_nil, or_false] at hd
    rcases hd with rfl | rfl | rfl <;> simp [Data.seen] at ha
  · rw [← skippedAt_iff]; decide

end

end Hooq
