import Verif.Spec.Capture
import Verif.Props.Presets
import Verif.Props.Helpers

/-!
# C81: which local variables of the expansion a bound value can see
-/

namespace Hooq

/-! ## `$bindings` and `$hooq_meta` -/

section
variable {names : List String} {ts : List TT} {sp : Span}

theorem step_name {s : String} (h : s ≠ "let") :
    seenIn ownValue names .plain (.ident s sp :: ts) = seenIn ownValue names .plain ts := by
  simp [seenIn, Reading.next, h, TT.seenIn, ownValue]

theorem step_punct {c : Char} (h : c ≠ '|') :
    seenIn ownValue names .plain (.punct c sp :: ts) = seenIn ownValue names .plain ts := by
  simp [seenIn, Reading.next, h, TT.seenIn, ownValue]

theorem step_let {x : String} {sp' : Span} :
    seenIn ownValue names .plain (.ident "let" sp :: .ident x sp' :: ts) =
      seenIn ownValue names (.inLet x) ts := by
  simp [seenIn, Reading.next, TT.seenIn, ownValue]

theorem step_inName {s x : String} :
    seenIn ownValue names (.inLet x) (.ident s sp :: ts) = seenIn ownValue names (.inLet x) ts := by
  simp [seenIn, Reading.next, TT.seenIn, ownValue]

theorem step_inPunct {c : Char} {x : String} (h : c ≠ ';') :
    seenIn ownValue names (.inLet x) (.punct c sp :: ts) = seenIn ownValue names (.inLet x) ts := by
  simp [seenIn, Reading.next, h, TT.seenIn, ownValue]

theorem step_done {x : String} :
    seenIn ownValue names (.inLet x) (.punct ';' sp :: ts) = seenIn ownValue (x :: names) .plain ts := by
  simp [seenIn, Reading.next, TT.seenIn, ownValue]

theorem step_group {m : Reading} {d : Delim} {us : List TT} :
    seenIn ownValue names m (.group d us sp :: ts) =
      seenIn ownValue names .plain us ++ seenIn ownValue names m ts := by
  cases m <;> simp [seenIn, Reading.next, TT.seenIn]

theorem step_lit {m : Reading} {l : Lit} :
    seenIn ownValue names m (.lit l sp :: ts) = seenIn ownValue names m ts := by
  cases m <;> simp [seenIn, Reading.next, TT.seenIn, ownValue]

theorem step_value {m : Reading} {v : Value} :
    seenIn ownValue names m (.valueHole v sp :: ts) = (v, names) :: seenIn ownValue names m ts := by
  cases m <;> simp [seenIn, Reading.next, TT.seenIn, ownValue]

theorem step_nil {m : Reading} : seenIn ownValue names m [] = [] := by simp [seenIn]

end

theorem seen_pair (names : List String) (p : String × Value) (ts : List TT) :
    seenIn ownValue names .plain (pairTokens p :: ts) =
      (p.2, "expr" :: names) :: seenIn ownValue names .plain ts := by
  simp [pairTokens, tkParen, tkAbs, tkP, tkId, tkBrace, tkLet, tkStr, step_name, step_punct, step_let,
    step_inName, step_inPunct, step_done, step_group, step_lit, step_value, step_nil]

theorem seen_pairs (names : List String) : ∀ l : List (String × Value),
    seenIn ownValue names .plain (pairsTokens l) = l.map fun p => (p.2, "expr" :: names)
  | [] => by simp [pairsTokens, seenIn]
  | [p] => by rw [pairsTokens, seen_pair, step_nil]; rfl
  | p :: q :: l => by
    rw [pairsTokens, seen_pair, tkP, step_punct (by decide), seen_pairs names (q :: l)]
    rfl

/-- C81, `$bindings`: every bound value can see the variable `expr` of the expansion, and
besides only what is in scope around `$bindings`. -/
theorem C81_bindings (names : List String) (l : List (String × Value)) :
    seenIn ownValue names .plain (bindingsTokens l) = l.map fun p => (p.2, "expr" :: names) := by
  simp [bindingsTokens, tkAbs, tkP, tkId, tkParen, step_name, step_punct, step_group, step_nil, seen_pairs]

/-- C81, `$hooq_meta`: the same. -/
theorem C81_meta (src : String) (names : List String) (r : MetaRec) :
    seenIn ownValue names .plain (metaTokens src r) = r.bindings.map fun p => (p.2, "expr" :: names) := by
  simp [metaTokens, bindingsTokens, tkAbs, tkP, tkId, tkParen, tkBrace, tkStr, step_name, step_punct,
    step_group, step_lit, step_nil, seen_pairs]

/-! ## Templates -/

mutual
/-- The values in a token of a template, `g x names` being those of `$x`. -/
def TT.fillSeen (own : List String → TT → List (Value × List String))
    (g : String → List String → List (Value × List String)) (names : List String) :
    TT → List (Value × List String)
  | .group _ ts _ => fillSeen own g names .plain false ts
  | t => own names t
/-- The values in a template; the flag says that the token before was a `$`. -/
def fillSeen (own : List String → TT → List (Value × List String))
    (g : String → List String → List (Value × List String)) (names : List String) (m : Reading) :
    Bool → List TT → List (Value × List String)
  | _, [] => []
  | true, .ident x _ :: ts => g x names ++ fillSeen own g names m false ts
  | true, _ :: _ => []
  | false, t :: ts => if t.isPunct '$' then fillSeen own g names m true ts
    else t.fillSeen own g names ++ fillSeen own g (m.next names t).1 (m.next names t).2 false ts
end

theorem Subst.seen {σ : String → List TT → Prop} {P : String → Prop}
    {own : List String → TT → List (Value × List String)}
    {g : String → List String → List (Value × List String)}
    (hσ : ∀ x o, P x → σ x o → ∃ t, o = [t] ∧ (∀ names m, Reading.next names m t = (names, m)) ∧
      ∀ names, t.seenIn own names = g x names) {ts out : List TT} (h : Subst σ ts out)
    (hc : ClosedAll P false ts) : ∀ names m, seenIn own names m out = fillSeen own g names m false ts := by
  induction h with
  | nil => intro names m; simp [fillSeen, seenIn]
  | @var sp sp' x o rest out h1 h2 ih =>
    intro names m
    obtain ⟨⟨y, ⟨_, e⟩, hy⟩, h4⟩ := hc.1 sp rfl
    simp only [TT.ident.injEq] at e
    obtain ⟨rfl, -⟩ := e
    obtain ⟨t, rfl, h5, h6⟩ := hσ _ _ hy h1
    rw [List.singleton_append, seenIn, h5, h6, ih h4]
    simp [fillSeen, TT.isPunct]
  | @group d ts ts' rest out sp h1 h2 ih1 ih2 =>
    intro names m
    obtain ⟨h3, h4⟩ := hc.2 (by simp)
    have e : Reading.next names m (.group d ts' .callSite) = (names, m) := by cases m <;> rfl
    have e' : Reading.next names m (.group d ts sp) = (names, m) := by cases m <;> rfl
    simp [fillSeen, seenIn, TT.seenIn, TT.isPunct, TT.fillSeen, ih1 h3, ih2 h4, e, e']
  | @tok t rest out h1 h2 h3 ih =>
    intro names m
    obtain ⟨_, h4⟩ := hc.2 h1
    have ht : t.isPunct '$' = false := by
      cases t <;> simp_all [TT.isPunct]
    have e : t.seenIn own names = t.fillSeen own g names := by
      cases t <;> simp_all [TT.fillSeen, TT.seenIn]
    rw [seenIn, ih h4, fillSeen, ht, e]
    rfl
  | lastDollar => intro names m; simp [fillSeen, seenIn, TT.isPunct]

theorem next_setSpan (sp : Span) (names : List String) (m : Reading) (t : TT) :
    m.next names (t.setSpan sp) = m.next names t := by
  cases m <;> cases t <;> rfl

theorem seen_setSpan (sp : Span) (src : String) (names : List String) (t : TT) :
    (t.setSpan sp).seenIn (splicedValues src) names = t.seenIn (splicedValues src) names := by
  cases t <;> rfl

theorem seenIn_setSpan (sp : Span) (src : String) : ∀ (ts : List TT) (names : List String) (m : Reading),
    seenIn (splicedValues src) names m (ts.map (TT.setSpan sp)) = seenIn (splicedValues src) names m ts
  | [], _, _ => rfl
  | t :: ts, names, m => by
    rw [List.map_cons, seenIn, seenIn, next_setSpan, seen_setSpan, seenIn_setSpan sp src ts]

theorem capturing_lead (src : String) (me : Method) (sp : Span) (out : List TT) :
    capturing src (me.lead ++ out.map (TT.setSpan sp)) = seenIn (splicedValues src) [] .plain out := by
  cases me with
  | insert dot ts e =>
    have e1 : Reading.next [] .plain (.punct '.' dot) = ([], .plain) := rfl
    have e2 : (TT.punct '.' dot).seenIn (splicedValues src) [] = [] := rfl
    rw [capturing, Method.lead, List.singleton_append, seenIn, e1, e2, seenIn_setSpan]
    rfl
  | replace ts e => rw [capturing, Method.lead, List.nil_append, seenIn_setSpan]

/-! ## The built-in flavors -/

theorem fillSeen_path {own : List String → TT → List (Value × List String)}
    {g : String → List String → List (Value × List String)} {names : List String} {x : String}
    (hown : ∀ t : TT, t.InPath → own names t = []) :
    ∀ {a : List TT}, (∀ t ∈ a, t.InPath) → ∀ b : List TT,
      fillSeen own g names (.inLet x) false (a ++ b) = fillSeen own g names (.inLet x) false b
  | [], _, _ => rfl
  | t :: a, h, b => by
    have ht := h t (by simp)
    have ih := fillSeen_path (g := g) (x := x) hown (a := a) (fun u hu => h u (by simp [hu])) b
    have e := hown t ht
    cases t with
    | ident s sp => simp [fillSeen, TT.isPunct, TT.fillSeen, e, Reading.next, ih]
    | punct c sp =>
      obtain rfl : c = ':' := ht
      simp [fillSeen, TT.isPunct, TT.fillSeen, e, Reading.next, ih]
    | _ => exact absurd ht (by simp [TT.InPath])

theorem inPath_own (src : String) (names : List String) (t : TT) (h : t.InPath) :
    splicedValues src names t = [] := by
  cases t with
  | ident s sp => rfl
  | punct c sp => rfl
  | _ => exact h.elim

/-- The values of the variables of the built-in methods. -/
def varSees (b : String → Option Value) (l : List (String × Value)) (x : String) (names : List String) :
    List (Value × List String) :=
  if x = "level" then ((b "level").map fun v => (v, names)).toList
  else if x = "hooq_meta" then l.map fun p => (p.2, "expr" :: names) else []

theorem fillSeen_head (src : String) (b : String → Option Value) (l : List (String × Value)) {helpers : List TT}
    (hh : ∀ t ∈ helpers, t.InPath) (names : List String) (mac : String) (rest : List TT) :
    fillSeen (splicedValues src) (varSees b l) names .plain false (presetHead helpers mac ++ rest) =
      fillSeen (splicedValues src) (varSees b l) ("expr" :: "col" :: "line" :: "path" :: names) .plain false
        rest := by
  have e : presetHead helpers mac ++ rest =
      [tkId "let", tkId "path", tkP '=', tkP '$', tkId "path", tkP ';',
       tkId "let", tkId "line", tkP '=', tkP '$', tkId "line", tkP ';',
       tkId "let", tkId "col", tkP '=', tkP '$', tkId "col", tkP ';',
       tkId "let", tkId "expr", tkP '='] ++ (helpers ++ (tkP ':' :: tkP ':' :: tkId mac :: tkP '!' ::
        tkParen (tkVar "source") :: tkP ';' :: rest)) := by
    simp [presetHead, tkLet, tkVar]
  rw [e]
  simp [fillSeen, fillSeen_path (inPath_own _ _) hh, TT.fillSeen, TT.isPunct, tkId, tkP, tkParen, tkVar,
    Reading.next, varSees, splicedValues, ownValue]

theorem sees_default (src : String) (b : String → Option Value) (l : List (String × Value)) {helpers : List TT}
    (hh : ∀ t ∈ helpers, t.InPath) :
    fillSeen (splicedValues src) (varSees b l) [] .plain false (defaultMethodTokens helpers).tail = [] := by
  simp only [defaultMethodTokens, List.append_assoc, List.tail_cons]
  simp [fillSeen, TT.fillSeen, TT.isPunct, tkId, tkP, tkParen, tkBrace, tkAbs, tkStr,
    fillSeen_head src b l hh, Reading.next, splicedValues, ownValue]

theorem sees_log (src : String) (b : String → Option Value) (l : List (String × Value)) {helpers : List TT}
    (hh : ∀ t ∈ helpers, t.InPath) :
    fillSeen (splicedValues src) (varSees b l) [] .plain false (logMethodTokens helpers).tail =
      ((b "level").map fun v => (v, ["expr", "col", "line", "path", "e"])).toList := by
  simp only [logMethodTokens, List.append_assoc, List.tail_cons]
  simp [fillSeen, TT.fillSeen, TT.isPunct, tkId, tkP, tkParen, tkBrace, tkAbs, tkStr, tkLet, tkVar,
    fillSeen_head src b l hh, Reading.next, splicedValues, ownValue, varSees]

theorem sees_anyhow (src : String) (b : String → Option Value) (l : List (String × Value)) {helpers : List TT}
    (hh : ∀ t ∈ helpers, t.InPath) :
    fillSeen (splicedValues src) (varSees b l) [] .plain false (anyhowMethodTokens helpers).tail = [] := by
  simp only [anyhowMethodTokens, List.tail_cons]
  simp [fillSeen, TT.fillSeen, TT.isPunct, tkId, tkP, tkParen, tkBrace, tkStr,
    fillSeen_head src b l hh, Reading.next, splicedValues, ownValue]

theorem sees_eyre (src : String) (b : String → Option Value) (l : List (String × Value)) {helpers : List TT}
    (hh : ∀ t ∈ helpers, t.InPath) :
    fillSeen (splicedValues src) (varSees b l) [] .plain false (eyreMethodTokens helpers).tail = [] := by
  simp only [eyreMethodTokens, List.tail_cons]
  simp [fillSeen, TT.fillSeen, TT.isPunct, tkId, tkP, tkParen, tkBrace, tkStr,
    fillSeen_head src b l hh, Reading.next, splicedValues, ownValue]

theorem sees_tracing (src : String) (b : String → Option Value) (l : List (String × Value)) {helpers : List TT}
    (hh : ∀ t ∈ helpers, t.InPath) :
    fillSeen (splicedValues src) (varSees b l) [] .plain false (tracingMethodTokens helpers).tail =
      ((b "level").map fun v => (v, ["expr", "col", "line", "path", "e"])).toList := by
  simp only [tracingMethodTokens, List.append_assoc, List.tail_cons]
  simp [fillSeen, TT.fillSeen, TT.isPunct, tkId, tkP, tkParen, tkBrace, tkAbs, tkVar,
    fillSeen_head src b l hh, Reading.next, splicedValues, ownValue, varSees]

theorem sees_hook (src : String) (b : String → Option Value) (l : List (String × Value)) :
    fillSeen (splicedValues src) (varSees b l) [] .plain false hookMethodTokens.tail =
      l.map fun p => (p.2, ["expr"]) := by
  simp [hookMethodTokens, fillSeen, TT.fillSeen, TT.isPunct, tkId, tkP, tkParen, tkBrace, tkVar, Reading.next,
    splicedValues, ownValue, varSees]

theorem sees_empty (src : String) (b : String → Option Value) (l : List (String × Value)) :
    fillSeen (splicedValues src) (varSees b l) [] .plain false emptyMethodTokens = [] := by
  simp [emptyMethodTokens, fillSeen, TT.isPunct, tkId, tkP, tkVar, varSees]

/-- What the reader finds in the method of the built-in flavor at a path. -/
def presetSees (b : String → Option Value) (l : List (String × Value)) (q : List String) :
    List (Value × List String) :=
  if q.head? = some "log" ∨ q.head? = some "tracing" then
    ((b "level").map fun v => (v, ["expr", "col", "line", "path", "e"])).toList
  else if q.head? = some "hook" then l.map fun p => (p.2, ["expr"])
  else []

theorem sees_preset (src : String) (b : String → Option Value) (l : List (String × Value)) {helpers : List TT}
    (hh : ∀ t ∈ helpers, t.InPath) (c : Bool) (q : List String) :
    fillSeen (splicedValues src) (varSees b l) [] .plain false
      (Method.parse c (presetTokens helpers q)).template = presetSees b l q := by
  have e1 : (Method.parse c emptyMethodTokens).template = emptyMethodTokens := by cases c <;> rfl
  have e2 : (Method.parse c hookMethodTokens).template = hookMethodTokens.tail := by cases c <;> rfl
  have e3 : (Method.parse c (logMethodTokens helpers)).template = (logMethodTokens helpers).tail := by
    cases c <;> rfl
  have e4 : (Method.parse c (anyhowMethodTokens helpers)).template = (anyhowMethodTokens helpers).tail := by
    cases c <;> rfl
  have e5 : (Method.parse c (eyreMethodTokens helpers)).template = (eyreMethodTokens helpers).tail := by
    cases c <;> rfl
  have e6 : (Method.parse c (tracingMethodTokens helpers)).template = (tracingMethodTokens helpers).tail := by
    cases c <;> rfl
  have e7 : (Method.parse c (defaultMethodTokens helpers)).template = (defaultMethodTokens helpers).tail := by
    cases c <;> rfl
  unfold presetTokens
  split_ifs with h1 h2 h3 h4 h5 h6
  · rw [e1, sees_empty]; simp [presetSees, h1]
  · rw [e2, sees_hook]; simp [presetSees, h2]
  · rw [e3, sees_log src b l hh]; simp [presetSees, h3]
  · rw [e4, sees_anyhow src b l hh]; simp [presetSees, h4]
  · rw [e5, sees_eyre src b l hh]; rcases h5 with h5 | h5 <;> simp [presetSees, h5]
  · rw [e6, sees_tracing src b l hh]; simp [presetSees, h6]
  · rw [e7, sees_default src b l hh]; simp [presetSees, h2, h3, h6]

theorem preset_capturing {env : Env} {args : List Meta} {s : Settings} {i i' : Item}
    {uses : List Path} {helpers : List TT} {doc : PresetDoc} (hp : Builtin env args helpers doc)
    (hh : ∀ t ∈ helpers, t.InPath) (hs : rootSettings env args = .ok s)
    (h : hooqImpls env args i = .ok (uses, i')) {p : List Nat} {d : Data} {up : List Data}
    (hu : i.chain p = some (d :: up)) (hr : reached env s (d :: up) = true)
    (hm : ∀ e ∈ d :: up, ∀ a ∈ e.seen, methodOf env a = none) (src : String) :
    ∃ n', i'.tree.sub p = some n' ∧ ∀ m ∈ n'.marks, ∃ l,
      let b := fun k => (nearest (bindingOf env k) (targetUp m.1.kind (d :: up))).or (s.bindings.get? k)
      (doc.path.head? = some "hook" → Listing b l) ∧
      ((doc.path.head? = some "log" ∨ doc.path.head? = some "tracing") → ∃ v, b "level" = some v) ∧
      capturing src m.1.toks = presetSees b l doc.path := by
  obtain ⟨n', h1, h2⟩ := hook_text hs (hp.nodup hs) h hu hr
  refine ⟨n', h1, fun m hm' => ?_⟩
  obtain ⟨sp, c, out, -, -, h5, h6⟩ := h2 m hm'
  have hsub : ∀ e ∈ targetUp m.1.kind (d :: up), e ∈ d :: up := by
    intro e he
    cases hk : m.1.kind <;> rw [hk] at he
    · exact List.mem_of_mem_tail he
    · exact List.mem_of_mem_tail he
    · exact he
  generalize targetUp m.1.kind (d :: up) = tup at h5 h6 hsub ⊢
  obtain ⟨f, g1, ⟨-, -, -, -, -, e6, e7⟩, ⟨lv, g2, -⟩, -⟩ := hp.settings hs
  obtain ⟨co, g3⟩ := hp.method hs
  have em : methodAt env s tup = s.method := by
    rw [methodAt, lastSet_none fun a ha => ?_]
    · rfl
    · obtain ⟨e, he, ha⟩ := mem_attrsOver ha
      exact hm e (hsub e he) a ha
  have eb : (siteAt env s tup m.1.kind sp c).binding =
      fun k => (nearest (bindingOf env k) tup).or (s.bindings.get? k) := by
    funext k; rw [← nearest_eq]; rfl
  rw [em] at h5 h6
  rw [← e6] at g2
  have nm : ∀ {v : MetaVar} {x : String}, MetaVar.ofString x = some v → v.Named x := fun h => (metaVar_named _ _).1 h
  -- the bindings in force can be listed if `$hooq_meta` is used
  obtain ⟨l, hl⟩ : ∃ l, ∀ l', Listing (siteAt env s tup m.1.kind sp c).binding l' → l' = l := by
    by_cases hex : ∃ l, Listing (siteAt env s tup m.1.kind sp c).binding l
    · obtain ⟨l, hl⟩ := hex
      exact ⟨l, fun l' hl' => listing_unique hl' hl⟩
    · exact ⟨[], fun l' hl' => absurd ⟨l', hl'⟩ hex⟩
  refine ⟨l, ?_, ?_, ?_⟩
  · intro hq
    have hd : DollarThen (TT.IsName "hooq_meta") s.method.template := by
      have e : (Method.parse co (presetTokens helpers doc.path)).template = hookMethodTokens.tail := by
        simp only [presetTokens, hq, Option.some.injEq, String.reduceEq, if_false, if_true]
        cases co <;> rfl
      rw [g3, e]
      exact .later (.inside (.later (.later (.inside (.here ⟨_, rfl⟩)))))
    obtain ⟨x, sp', o, ⟨_, hx⟩, ho⟩ := h5.dollarThen hd
    simp only [TT.ident.injEq] at hx
    obtain ⟨rfl, -⟩ := hx
    rw [varText_named (v := .hooqMeta) (nm rfl)] at ho
    obtain ⟨l', -, hl', -, -⟩ := ho
    rw [← eb, ← hl l' hl']
    exact hl'
  · intro hq
    have hlev : doc.level ≠ none := by
      have := hp.row
      simp only [presetDocs, List.mem_cons, List.not_mem_nil, or_false] at this
      rcases this with rfl | rfl | rfl | rfl | rfl | rfl | rfl | rfl | rfl | rfl | rfl | rfl | rfl | rfl | rfl |
        rfl | rfl | rfl <;> first | (simp [logDoc, tracingDoc]; done) | (simp at hq; done)
    obtain ⟨lev, hlev⟩ := Option.ne_none_iff_exists'.1 hlev
    obtain ⟨v, _, k1, -⟩ := g1.level lev hlev
    cases hn : nearest (bindingOf env "level") tup with
    | some w => exact ⟨w, by simp [hn]⟩
    | none => exact ⟨v, by simp [hn, e7, k1, AMap.get?]⟩
  · rw [h6, capturing_lead, ← eb, ← sees_preset src _ l hh co doc.path, ← g3]
    refine h5.seen (P := presetVars lv) ?_ g2 _ _
    rintro x o hx ho
    rcases hx with hx | ⟨-, rfl⟩
    · simp only [List.mem_cons, List.not_mem_nil, or_false] at hx
      rcases hx with rfl | rfl | rfl | rfl | rfl | rfl
      · rw [varText_named (v := .path) (nm rfl)] at ho
        exact ⟨_, ho, fun _ m => by cases m <;> rfl, fun _ => rfl⟩
      · rw [varText_named (v := .line) (nm rfl)] at ho
        exact ⟨_, ho, fun _ m => by cases m <;> rfl, fun _ => rfl⟩
      · rw [varText_named (v := .column) (nm rfl)] at ho
        exact ⟨_, ho, fun _ m => by cases m <;> rfl, fun _ => rfl⟩
      · rw [varText_named (v := .source) (nm rfl)] at ho
        exact ⟨_, ho, fun _ m => by cases m <;> rfl, fun _ => rfl⟩
      · rw [varText_named (v := .expr) (nm rfl)] at ho
        exact ⟨_, ho, fun _ m => by cases m <;> rfl, fun _ => rfl⟩
      · rw [varText_named (v := .hooqMeta) (nm rfl)] at ho
        obtain ⟨l', g, hl', -, ho⟩ := ho
        refine ⟨_, ho, fun _ m => by cases m <;> rfl, fun names => ?_⟩
        rw [← hl l' hl']
        exact C81_meta src names _
    · have no : ∀ m, ¬ MetaVar.Named m "level" := by
        intro m hm
        have := (metaVar_named _ _).2 hm
        cases this
      obtain ⟨v, hv, ho⟩ := (varText_binding no _).1 ho
      refine ⟨_, ho, fun _ m => by cases m <;> rfl, fun names => ?_⟩
      simp [varSees, hv, TT.seenIn, splicedValues, ownValue]

/-- C81, the flavors `log` and `tracing`: the value of `level` can see exactly the
parameter `e` of the closure and the variables `path`, `line`, `col`, `expr` in front of
it, whatever it is set to. -/
theorem C81_level {env : Env} {args : List Meta} {s : Settings} {i i' : Item}
    {uses : List Path} {helpers : List TT} {doc : PresetDoc} (hp : Builtin env args helpers doc)
    (hq : doc.path.head? = some "log" ∨ doc.path.head? = some "tracing")
    (hh : ∀ t ∈ helpers, t.InPath) (hs : rootSettings env args = .ok s)
    (h : hooqImpls env args i = .ok (uses, i')) {p : List Nat} {d : Data} {up : List Data}
    (hu : i.chain p = some (d :: up)) (hr : reached env s (d :: up) = true)
    (hm : ∀ e ∈ d :: up, ∀ a ∈ e.seen, methodOf env a = none) (src : String) :
    ∃ n', i'.tree.sub p = some n' ∧ ∀ m ∈ n'.marks, ∃ v,
      (nearest (bindingOf env "level") (targetUp m.1.kind (d :: up))).or (s.bindings.get? "level") = some v ∧
      capturing src m.1.toks = [(v, ["expr", "col", "line", "path", "e"])] := by
  obtain ⟨n', h1, h2⟩ := preset_capturing hp hh hs h hu hr hm src
  refine ⟨n', h1, fun m hm' => ?_⟩
  obtain ⟨l, -, h4, h5⟩ := h2 m hm'
  obtain ⟨v, hv⟩ := h4 hq
  exact ⟨v, hv, by rw [h5]; simp [presetSees, hq, hv]⟩

/-- C81, the flavor `hook`: the values in the hook are those of the bindings in force, by
name, and each can see exactly one variable of the expansion, `expr`. -/
theorem C81_hook {env : Env} {args : List Meta} {s : Settings} {i i' : Item}
    {uses : List Path} {helpers : List TT} {doc : PresetDoc} (hp : Builtin env args helpers doc)
    (hq : doc.path.head? = some "hook")
    (hh : ∀ t ∈ helpers, t.InPath) (hs : rootSettings env args = .ok s)
    (h : hooqImpls env args i = .ok (uses, i')) {p : List Nat} {d : Data} {up : List Data}
    (hu : i.chain p = some (d :: up)) (hr : reached env s (d :: up) = true)
    (hm : ∀ e ∈ d :: up, ∀ a ∈ e.seen, methodOf env a = none) (src : String) :
    ∃ n', i'.tree.sub p = some n' ∧ ∀ m ∈ n'.marks, ∃ l,
      Listing (fun k => (nearest (bindingOf env k) (targetUp m.1.kind (d :: up))).or (s.bindings.get? k)) l ∧
      capturing src m.1.toks = l.map fun p => (p.2, ["expr"]) := by
  obtain ⟨n', h1, h2⟩ := preset_capturing hp hh hs h hu hr hm src
  refine ⟨n', h1, fun m hm' => ?_⟩
  obtain ⟨l, h3, -, h5⟩ := h2 m hm'
  exact ⟨l, h3 hq, by rw [h5]; simp [presetSees, hq]⟩

/-- C81, the other built-in flavors: no bound value gets into the expansion. -/
theorem C81_none {env : Env} {args : List Meta} {s : Settings} {i i' : Item}
    {uses : List Path} {helpers : List TT} {doc : PresetDoc} (hp : Builtin env args helpers doc)
    (hq : ∀ x ∈ ["log", "tracing", "hook"], doc.path.head? ≠ some x)
    (hh : ∀ t ∈ helpers, t.InPath) (hs : rootSettings env args = .ok s)
    (h : hooqImpls env args i = .ok (uses, i')) {p : List Nat} {d : Data} {up : List Data}
    (hu : i.chain p = some (d :: up)) (hr : reached env s (d :: up) = true)
    (hm : ∀ e ∈ d :: up, ∀ a ∈ e.seen, methodOf env a = none) (src : String) :
    ∃ n', i'.tree.sub p = some n' ∧ ∀ m ∈ n'.marks, capturing src m.1.toks = [] := by
  obtain ⟨n', h1, h2⟩ := preset_capturing hp hh hs h hu hr hm src
  refine ⟨n', h1, fun m hm' => ?_⟩
  obtain ⟨l, -, -, h5⟩ := h2 m hm'
  rw [h5]
  simp [presetSees, hq "log" (by simp), hq "tracing" (by simp), hq "hook" (by simp)]

/-! ## What this means at run time -/

/-- C81, at run time: if the bound value does not depend on a variable `expr`, then
`get_binding` gives the value it has where the hook stands. -/
theorem C81_value {Ty : Nat → Type} (eval : Scope Ty → Value → Dyn Ty) (str : String → Dyn Ty)
    (sc : Scope Ty) {b : String → Option Value} {r : MetaRec} (hl : Listing b r.bindings) {key : String}
    {val : Value} (hb : b key = some val) (hf : ∀ d, eval (sc.bind "expr" d) val = eval sc val)
    (t : Nat) (v : Ty t) :
    (runMeta eval str sc r).getBinding t key = some v ↔ eval sc val = ⟨t, v⟩ := by
  rw [C49_get_binding _ (runBindings_nodup eval str sc r.bindings)]
  simp only [runMeta, runBindings_bound eval str sc hl, hb, Option.some.injEq, exists_eq_left', hf,
    Payload.mk.injEq]
  exact ⟨fun ⟨_, _, e⟩ => e.symm, fun e => ⟨_, rfl, e.symm⟩⟩

/-- C81, at run time: if the bound value is the variable `expr`, then `get_binding` gives
the text `expr`, whatever the variable of that name holds where the hook stands. -/
theorem C81_captured {Ty : Nat → Type} (eval : Scope Ty → Value → Dyn Ty) (str : String → Dyn Ty)
    (sc : Scope Ty) {b : String → Option Value} {r : MetaRec} (hl : Listing b r.bindings) {key : String}
    {val : Value} (hb : b key = some val) (ht : val.text = "expr")
    (hv : ∀ sc d, sc "expr" = some d → eval sc val = d) (t : Nat) (v : Ty t) :
    (runMeta eval str sc r).getBinding t key = some v ↔ str "expr" = ⟨t, v⟩ := by
  rw [C49_get_binding _ (runBindings_nodup eval str sc r.bindings)]
  have e : eval (sc.bind "expr" (str val.text)) val = str "expr" := by
    rw [hv _ (str val.text) (by simp [Scope.bind]), ht]
  simp only [runMeta, runBindings_bound eval str sc hl, hb, Option.some.injEq, exists_eq_left', e,
    Payload.mk.injEq]
  exact ⟨fun ⟨_, _, e⟩ => e.symm, fun e => ⟨_, rfl, e.symm⟩⟩

section
open Ex
set_option maxRecDepth 10000

/-- `#[hooq::level = expr]` on a function. -/
def Ex.levelled : Item :=
  .fn [.nv (hooqPath "level") ⟨.path (Path.ofIdents ["expr"]), "expr"⟩]
    { ident := "f", output := result, text := "fn f () -> Result" }
    [.expr (quest [] (var "w" 11) 11) true, .expr (call "Ok" [var "k" 12] 12) false]

example : ∃ s i' n' m d up, rootSettings env logArgs = .ok s ∧
    hooqImpls env logArgs levelled = .ok ([], i') ∧ levelled.chain [0, 0] = some (d :: up) ∧
    reached env s (d :: up) = true ∧ (∀ e ∈ d :: up, ∀ a ∈ e.seen, methodOf env a = none) ∧
    (∀ t ∈ [tkId "helpers"], t.InPath) ∧ (logDoc ["warn"] "Warn").path.head? = some "log" ∧
    i'.tree.sub [0, 0] = some n' ∧ n'.marks = [m] := by
  refine ⟨_, _, _, _, _, _, rfl, rfl, rfl, rfl, ?_, by simp [TT.InPath, tkId], rfl, rfl, rfl⟩
  intro d hd a ha
  simp only [List.mem_cons, List.not_mem_nil, or_false] at hd
  rcases hd with rfl | rfl | rfl <;> simp [Data.seen] at ha
  subst ha
  rfl

/-- The same under `#[hooq(hook)]`. -/
theorem Ex.hook_builtin : Builtin env [.path (Path.ofIdents ["hook"])] [tkId "helpers"] presetDocs[2] := by
  refine ⟨by simp [presetDocs], rfl, by simp [NoDollars, TT.NoDollar, tkId], ?_⟩
  have h : Reaches (presetFlavors false [tkId "helpers"] ⟨true, true, true, true⟩) ["hook"] _ :=
    (inner_iff (uniq_presets _ _ _) _ _).1 rfl
  exact ⟨_, false, ⟨true, true, true, true⟩, _, rfl, uniq_presets _ _ _, h, h⟩

/-- The values in the hook on the `?` and the names they can see. -/
def Ex.levelledSees (args : List Meta) : List (List (Value × List String)) :=
  match hooqImpls env args levelled with
  | .ok (_, i') => match i'.tree.sub [0, 0] with
    | some n' => n'.marks.map fun m => capturing "w" m.1.toks
    | none => []
  | .error _ => []

example : levelledSees logArgs =
    [[(⟨.path (Path.ofIdents ["expr"]), "expr"⟩, ["expr", "col", "line", "path", "e"])]] := by decide +kernel
example : levelledSees [.path (Path.ofIdents ["hook"])] =
    [[(⟨.path (Path.ofIdents ["expr"]), "expr"⟩, ["expr"])]] := by decide +kernel
example : levelledSees [] = [[]] := by decide +kernel

/-- Two types, numbers (0) and strings (1); the user's variable `expr` holds 5. -/
def Ex.captured : HooqMeta (fun t => if t = 0 then Nat else String) :=
  runMeta (fun sc v => (sc v.text).getD ⟨0, (7 : Nat)⟩) (fun s => ⟨1, s⟩)
    (fun x => if x = "expr" then some ⟨0, (5 : Nat)⟩ else none)
    { line := 1, col := 1, path := "", file := "", count := "",
      bindings := [("a", ⟨.other, "expr"⟩), ("b", ⟨.other, "x"⟩)] }

example : Ex.captured.getBinding 0 "a" = none ∧ Ex.captured.getBinding 1 "a" = some "expr" ∧
    Ex.captured.getBinding 0 "b" = some (7 : Nat) := ⟨rfl, rfl, rfl⟩

end

end Hooq
