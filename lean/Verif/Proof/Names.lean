import Verif.Spec.Names
import Verif.Props.RunHook

/-!
# Absolute paths in the hooks of the built-in flavors
-/

namespace Hooq

theorem pathNames_other (A B : List Word) : pathNames (A ++ .other :: B) = pathNames A := by
  fun_induction pathNames A with
  | case1 x r ih => simp [pathNames, ih]
  | case2 A h =>
    match A, h with
    | [], _ => simp [pathNames]
    | .other :: _, _ => simp [pathNames]
    | .name _ :: _, _ => simp [pathNames]
    | [.colon], _ => simp [pathNames]
    | .colon :: .other :: _, _ => simp [pathNames]
    | .colon :: .name _ :: _, _ => simp [pathNames]
    | [.colon, .colon], _ => simp [pathNames]
    | .colon :: .colon :: .other :: _, _ => simp [pathNames]
    | .colon :: .colon :: .colon :: _, _ => simp [pathNames]
    | .colon :: .colon :: .name x :: r, h => exact absurd rfl (h x r)

/-- What does not belong to a path separates paths. -/
theorem absolutePaths_other (b : Bool) (A B : List Word) :
    absolutePaths b (A ++ .other :: B) = absolutePaths b A ++ absolutePaths false B := by
  fun_induction absolutePaths b A with
  | case1 x r ih => simp [absolutePaths, ih]
  | case2 b x r hb ih => simp [absolutePaths, ih, pathNames_other, hb]
  | case3 b x r ih => simp [absolutePaths, ih]
  | case4 b r h ih =>
    match r, h, ih with
    | [], _, _ => simp [absolutePaths]
    | .other :: _, _, ih => simpa [absolutePaths] using ih
    | .name _ :: _, _, ih => simpa [absolutePaths] using ih
    | [.colon], _, _ => simp [absolutePaths]
    | .colon :: .other :: _, _, ih => simpa [absolutePaths] using ih
    | .colon :: .colon :: _, _, ih => simpa [absolutePaths] using ih
    | .colon :: .name x :: r, h, _ => exact absurd rfl (h x r)
  | case5 b r ih => simp [absolutePaths, ih]
  | case6 => simp [absolutePaths]

theorem scanAll_append (h : TT → List Word) (a b : List TT) : scanAll h (a ++ b) = scanAll h a ++ scanAll h b := by
  induction a with
  | nil => simp [scanAll]
  | cons t a ih => simp [scanAll, ih]

theorem scan_setSpan (src : String) (sp : Span) (t : TT) :
    (t.setSpan sp).scan (TT.spliced src) = t.scan (TT.spliced src) := by
  cases t <;> simp [TT.setSpan, TT.scan, TT.spliced]

theorem scanAll_setSpan (src : String) (sp : Span) (ts : List TT) :
    scanAll (TT.spliced src) (ts.map (TT.setSpan sp)) = scanAll (TT.spliced src) ts := by
  induction ts with
  | nil => simp [scanAll]
  | cons t a ih => simp [scanAll, ih, scan_setSpan]

/-- Tokens between separators: what is in the middle does not depend on what is around. -/
theorem absolutePaths_between (b : Bool) (A B C : List Word) :
    absolutePaths b (A ++ (.other :: B ++ [.other]) ++ C) =
      absolutePaths b A ++ absolutePaths false B ++ absolutePaths false C := by
  have : A ++ (.other :: B ++ [.other]) ++ C = A ++ .other :: (B ++ .other :: C) := by simp
  rw [this, absolutePaths_other, absolutePaths_other, List.append_assoc]

/-! ## The presets -/

/-- The words of the pair for a binding. -/
def pairWords : List Word :=
  let own := [.colon, .colon, .name "std", .colon, .colon, .name "string", .colon, .colon, .name "ToString",
    .colon, .colon, .name "to_string", .other, .other, .other]
  own ++ [.other, .other] ++ [.other, .name "expr", .other] ++ own ++ [.other, .other, .name "value", .colon,
    .colon, .colon, .name "std", .colon, .colon, .name "rc", .colon, .colon, .name "Rc", .other, .other,
    .colon, .colon, .name "std", .colon, .colon, .name "any", .colon, .colon, .name "Any", .other, .other,
    .colon, .colon, .name "std", .colon, .colon, .name "rc", .colon, .colon, .name "Rc", .colon, .colon, .name "new",
    .other, .other, .other, .other, .colon, .colon, .name "hooq", .colon, .colon, .name "BindingPayload",
    .other, .name "expr", .other, .name "value", .other, .other, .other]

theorem scan_pair (p : String × Value) :
    (pairTokens p).scan (fun _ => [.other]) = .other :: pairWords ++ [.other] := by
  simp [pairTokens, pairWords, tkAbs, tkP, tkId, tkParen, tkBrace, tkLet, tkStr, scanAll, TT.scan, otherKeywords]

theorem names_pair : absolutePaths false pairWords =
    [["std", "string", "ToString", "to_string"], ["std", "string", "ToString", "to_string"], ["std", "rc", "Rc"],
      ["std", "any", "Any"], ["std", "rc", "Rc", "new"], ["hooq", "BindingPayload"]] := by decide

theorem names_pairs (l : List (String × Value)) (q : List String) :
    q ∈ absolutePaths false (scanAll (fun _ => [.other]) (pairsTokens l)) ↔
      l ≠ [] ∧ (q = ["hooq", "BindingPayload"] ∨ q ∈ payloadNames) := by
  have mid : ∀ p (C : List Word), absolutePaths false ((pairTokens p).scan (fun _ => [.other]) ++ C) =
      absolutePaths false pairWords ++ absolutePaths false C := by
    intro p C
    have := absolutePaths_between false [] pairWords C
    rw [scan_pair]
    exact this
  have comma : ∀ C : List Word, absolutePaths false ((tkP ',').scan (fun _ => [.other]) ++ C) = absolutePaths false C := by
    intro C
    simp [tkP, TT.scan, absolutePaths]
  induction l with
  | nil => simp [pairsTokens, scanAll, absolutePaths]
  | cons p l ih =>
    cases l with
    | nil =>
      rw [pairsTokens, scanAll, mid, scanAll, names_pair]
      simp [payloadNames, absolutePaths]
      tauto
    | cons p' l =>
      rw [pairsTokens, scanAll, mid, scanAll, comma, List.mem_append, names_pair]
      refine (or_congr Iff.rfl ih).trans ?_
      simp [payloadNames]
      tauto

theorem scan_bindings (l : List (String × Value)) : scanAll (fun _ => [.other]) (bindingsTokens l) =
    [.colon, .colon, .name "std", .colon, .colon, .name "collections", .colon, .colon, .name "HashMap",
      .colon, .colon, .name "from", .other] ++
      (.other :: scanAll (fun _ => [.other]) (pairsTokens l) ++ [.other]) ++ [.other] := by
  simp [bindingsTokens, tkAbs, tkP, tkId, tkParen, scanAll, TT.scan, otherKeywords]

theorem names_bindings (l : List (String × Value)) (q : List String) :
    q ∈ absolutePaths false (scanAll (fun _ => [.other]) (bindingsTokens l)) ↔
      q = ["std", "collections", "HashMap", "from"] ∨
        l ≠ [] ∧ (q = ["hooq", "BindingPayload"] ∨ q ∈ payloadNames) := by
  rw [scan_bindings, absolutePaths_between, List.mem_append, List.mem_append, names_pairs]
  simp [absolutePaths, pathNames]

/-- The words of a record in front of the bindings. -/
def metaWords : List Word :=
  [.colon, .colon, .name "hooq", .colon, .colon, .name "HooqMeta", .other,
   .name "line", .colon, .other, .other, .name "column", .colon, .other, .other, .name "path", .colon, .other, .other,
   .name "file", .colon, .other, .other, .name "source_str", .colon, .other, .other, .name "count", .colon, .other, .other,
   .name "bindings", .colon]

theorem names_meta (src : String) (m : MetaRec) (q : List String) :
    q ∈ absolutePaths false (scanAll (fun _ => [.other]) (metaTokens src m)) ↔
      q = ["hooq", "HooqMeta"] ∨ q = ["std", "collections", "HashMap", "from"] ∨
        m.bindings ≠ [] ∧ (q = ["hooq", "BindingPayload"] ∨ q ∈ payloadNames) := by
  have e : scanAll (fun _ => [.other]) (metaTokens src m) =
      metaWords ++ scanAll (fun _ => [.other]) (bindingsTokens m.bindings) ++ [.other, .other] := by
    simp [metaTokens, metaWords, tkAbs, tkP, tkId, tkBrace, tkStr, scanAll, TT.scan, otherKeywords, scanAll_append]
  have e2 : metaWords ++ scanAll (fun _ => [.other]) (bindingsTokens m.bindings) ++ [.other, .other] =
      (metaWords ++ [.colon, .colon, .name "std", .colon, .colon, .name "collections", .colon, .colon, .name "HashMap",
      .colon, .colon, .name "from", .other]) ++
      (.other :: scanAll (fun _ => [.other]) (pairsTokens m.bindings) ++ [.other]) ++ [.other, .other, .other] := by
    rw [scan_bindings]
    simp
  have e3 : absolutePaths false (metaWords ++ [.colon, .colon, .name "std", .colon, .colon, .name "collections",
      .colon, .colon, .name "HashMap", .colon, .colon, .name "from", .other]) =
      [["hooq", "HooqMeta"], ["std", "collections", "HashMap", "from"]] := by decide
  rw [e, e2, absolutePaths_between, List.mem_append, List.mem_append, names_pairs, e3]
  simp [absolutePaths, or_assoc]

/-! ## The methods of the presets -/

theorem scan_abs (g : TT → List Word) : ∀ {l : List String}, (∀ x ∈ l, x ∉ otherKeywords) →
    scanAll g (tkAbs l) = l.flatMap fun x => [.colon, .colon, .name x]
  | [], _ => by simp [tkAbs, scanAll]
  | x :: l, h => by
    have ih := scan_abs g (l := l) fun y hy => h y (by simp [hy])
    have hx := h x (by simp)
    simp only [tkAbs, List.map_cons, List.flatten_cons] at ih ⊢
    rw [List.cons_append, List.cons_append, List.cons_append, List.nil_append, scanAll, scanAll, scanAll, ih]
    simp [TT.scan, tkP, tkId, hx]

theorem pathNames_abs (l : List String) (C : List Word) :
    pathNames (l.flatMap (fun x => [.colon, .colon, .name x]) ++ .other :: C) = l := by
  induction l with
  | nil => simp [pathNames]
  | cons x l ih => simpa [pathNames] using ih

theorem absolutePaths_behind (l : List String) (C : List Word) :
    absolutePaths true (l.flatMap (fun x => [.colon, .colon, .name x]) ++ .other :: C) = absolutePaths false C := by
  induction l with
  | nil => simp [absolutePaths]
  | cons x l ih => simpa [absolutePaths] using ih

theorem absolutePaths_abs {l : List String} (h : l ≠ []) (C : List Word) :
    absolutePaths false (l.flatMap (fun x => [.colon, .colon, .name x]) ++ .other :: C) = l :: absolutePaths false C := by
  cases l with
  | nil => exact absurd rfl h
  | cons x l =>
    have h1 := pathNames_abs l C
    have h2 := absolutePaths_behind l C
    simp [absolutePaths, h1, h2]

/-- The words of the head of a preset and of what follows. -/
theorem pathNames_head {src : String} {a : Where} {b : String → Option Value} {m : MetaRec} {l : List String}
    (hl : ∀ x ∈ l, x ∉ otherKeywords) (hne : l ≠ []) {mac : String} (hm : mac ∉ otherKeywords) (rest : List TT) :
    absolutePaths false (scanAll (TT.spliced src) (fillToks (varToks a b m) false (presetHead (tkAbs l) mac ++ rest))) =
      (l ++ [mac]) :: absolutePaths false (scanAll (TT.spliced src) (fillToks (varToks a b m) false rest)) := by
  have hh : ∀ t ∈ tkAbs l, t.InPath := by
    intro t ht
    simp only [tkAbs, List.mem_flatten, List.mem_map] at ht
    obtain ⟨_, ⟨x, hx, rfl⟩, ht⟩ := ht
    simp only [List.mem_cons, List.not_mem_nil, or_false] at ht
    rcases ht with rfl | rfl | rfl
    · simp [TT.InPath, tkP]
    · simp [TT.InPath, tkP]
    · simp only [TT.InPath, tkId]
      rintro rfl
      exact hl _ hx (by simp [otherKeywords])
  have e : presetHead (tkAbs l) mac ++ rest =
      [tkId "let", tkId "path", tkP '=', tkP '$', tkId "path", tkP ';',
       tkId "let", tkId "line", tkP '=', tkP '$', tkId "line", tkP ';',
       tkId "let", tkId "col", tkP '=', tkP '$', tkId "col", tkP ';',
       tkId "let", tkId "expr", tkP '='] ++ (tkAbs l ++ (tkP ':' :: tkP ':' :: tkId mac :: tkP '!' ::
        tkParen (tkVar "source") :: tkP ';' :: rest)) := by
    simp [presetHead, tkLet, tkVar]
  have e' : scanAll (TT.spliced src) (fillToks (varToks a b m) false (presetHead (tkAbs l) mac ++ rest)) =
      [.other, .name "path", .other, .other, .other, .other, .name "line", .other, .other, .other,
        .other, .name "col", .other, .other, .other, .other, .name "expr"] ++ .other ::
      ((l ++ [mac]).flatMap (fun x => [.colon, .colon, .name x]) ++ .other :: ([.other, .other, .other] ++ .other ::
        scanAll (TT.spliced src) (fillToks (varToks a b m) false rest))) := by
    rw [e]
    simp [fillToks, fillToks_path hh, TT.fillToks, TT.isPunct, tkId, tkP, tkParen, tkVar, varToks, scanAll, TT.scan,
      scanAll_append, scan_abs _ hl, hm, TT.spliced]
    simp [otherKeywords]
  rw [e', absolutePaths_other, absolutePaths_abs (by simp), absolutePaths_other]
  simp [absolutePaths]

/-- The words of a level. -/
theorem spliced_level {src : String} {v : Value} {pa : Path} {lev : List String} (h1 : v.view = .path pa)
    (h2 : pa.IsAbs lev) (sp : Span) : (TT.valueHole v sp).scan (TT.spliced src) =
      .other :: lev.flatMap (fun x => [.colon, .colon, .name x]) ++ [.other] := by
  obtain ⟨h2, rfl, -⟩ := h2
  simp [TT.scan, TT.spliced, h1, h2, List.flatMap_map]

section
variable {src : String} {a : Where} {b : String → Option Value} {m : MetaRec} {sp : Span} {co : Bool}

/-- The names in the tokens that a template becomes. -/
def templateNames (src : String) (a : Where) (b : String → Option Value) (m : MetaRec) (sp : Span) (me : Method) :
    List (List String) :=
  absolutePaths false (scanAll (TT.spliced src) (me.lead ++
    (fillToks (varToks a b m) false me.template).map (TT.setSpan sp)))

theorem names_default {l : List String} (hl : ∀ x ∈ l, x ∉ otherKeywords) (hne : l ≠ []) :
    templateNames src a b m sp (Method.parse co (defaultMethodTokens (tkAbs l))) =
      [l ++ ["excerpted_pretty_stringify"], ["std", "eprintln"]] := by
  have e3 : (Method.parse co (defaultMethodTokens (tkAbs l))).lead = [.punct '.' .callSite] := by cases co <;> rfl
  have e4 : (Method.parse co (defaultMethodTokens (tkAbs l))).template = (defaultMethodTokens (tkAbs l)).tail := by
    cases co <;> rfl
  have hd := pathNames_head (src := src) (a := a) (b := b) (m := m) hl hne (mac := "excerpted_pretty_stringify")
    (by simp [otherKeywords]) (tkAbs ["std", "eprintln"] ++
      [tkP '!', tkParen [tkStr "[{path}:{line}:{col}] {e:?}\n{expr}"], tkP ';'])
  have e5 : scanAll (TT.spliced src) (Method.lead (Method.parse co (defaultMethodTokens (tkAbs l))) ++
      (fillToks (varToks a b m) false (defaultMethodTokens (tkAbs l)).tail).map (TT.setSpan sp)) =
      [.other, .name "inspect_err", .other, .other, .name "e", .other] ++ (.other ::
        scanAll (TT.spliced src) (fillToks (varToks a b m) false (presetHead (tkAbs l) "excerpted_pretty_stringify" ++
        (tkAbs ["std", "eprintln"] ++
          [tkP '!', tkParen [tkStr "[{path}:{line}:{col}] {e:?}\n{expr}"], tkP ';']))) ++ [.other]) ++ [.other] := by
    rw [scanAll_append, scanAll_setSpan, e3]
    simp [defaultMethodTokens, fillToks, TT.fillToks, TT.isPunct, tkId, tkP, tkParen, tkBrace, scanAll, TT.scan]
    simp [otherKeywords]
  rw [templateNames, e4, e5, absolutePaths_between, hd]
  simp [tkAbs, tkP, tkId, tkParen, tkStr, fillToks, TT.fillToks, TT.isPunct, scanAll, TT.scan, otherKeywords,
    absolutePaths, pathNames]

theorem names_log {l : List String} (hl : ∀ x ∈ l, x ∉ otherKeywords) (hne : l ≠ []) {v : Value} {pa : Path}
    {lev : List String} (hv : b "level" = some v) (h1 : v.view = .path pa) (h2 : pa.IsAbs lev) (hlev : lev ≠ []) :
    templateNames src a b m sp (Method.parse co (logMethodTokens (tkAbs l))) =
      [l ++ ["excerpted_pretty_stringify"], lev, ["log", "log"]] := by
  have e3 : (Method.parse co (logMethodTokens (tkAbs l))).lead = [.punct '.' .callSite] := by cases co <;> rfl
  have e4 : (Method.parse co (logMethodTokens (tkAbs l))).template = (logMethodTokens (tkAbs l)).tail := by
    cases co <;> rfl
  have hd := pathNames_head (src := src) (a := a) (b := b) (m := m) hl hne (mac := "excerpted_pretty_stringify")
    (by simp [otherKeywords]) (tkLet "level" (tkVar "level") ++ (tkAbs ["log", "log"] ++
      [tkP '!', tkParen [tkId "level", tkP ',', tkStr "({path}:{line}:{col}) {e}\n{expr}"], tkP ';']))
  have e5 : scanAll (TT.spliced src) (Method.lead (Method.parse co (logMethodTokens (tkAbs l))) ++
      (fillToks (varToks a b m) false (logMethodTokens (tkAbs l)).tail).map (TT.setSpan sp)) =
      [.other, .name "inspect_err", .other, .other, .name "e", .other] ++ (.other ::
        scanAll (TT.spliced src) (fillToks (varToks a b m) false (presetHead (tkAbs l) "excerpted_pretty_stringify" ++
        (tkLet "level" (tkVar "level") ++ (tkAbs ["log", "log"] ++
          [tkP '!', tkParen [tkId "level", tkP ',', tkStr "({path}:{line}:{col}) {e}\n{expr}"], tkP ';'])))) ++
        [.other]) ++ [.other] := by
    rw [scanAll_append, scanAll_setSpan, e3]
    simp [logMethodTokens, fillToks, TT.fillToks, TT.isPunct, tkId, tkP, tkParen, tkBrace, scanAll, TT.scan]
    simp [otherKeywords]
  have e6 : scanAll (TT.spliced src) (fillToks (varToks a b m) false (tkLet "level" (tkVar "level") ++
      (tkAbs ["log", "log"] ++
      [tkP '!', tkParen [tkId "level", tkP ',', tkStr "({path}:{line}:{col}) {e}\n{expr}"], tkP ';']))) =
      [.other, .name "level", .other] ++ .other :: (lev.flatMap (fun x => [.colon, .colon, .name x]) ++ .other ::
        [.other, .colon, .colon, .name "log", .colon, .colon, .name "log", .other, .other, .name "level", .other,
          .other, .other, .other]) := by
    simp [tkLet, tkVar, tkAbs, tkP, tkId, tkParen, tkStr, fillToks, TT.fillToks, TT.isPunct, varToks, hv, scanAll,
      spliced_level h1 h2]
    simp [scanAll, TT.scan, otherKeywords]
  rw [templateNames, e4, e5, absolutePaths_between, hd, e6, absolutePaths_other, absolutePaths_abs hlev]
  simp [absolutePaths, pathNames]

theorem names_tracing {l : List String} (hl : ∀ x ∈ l, x ∉ otherKeywords) (hne : l ≠ []) {v : Value} {pa : Path}
    {lev : List String} (hv : b "level" = some v) (h1 : v.view = .path pa) (h2 : pa.IsAbs lev) (hlev : lev ≠ []) :
    templateNames src a b m sp (Method.parse co (tracingMethodTokens (tkAbs l))) =
      [l ++ ["one_line_stringify"], ["tracing", "event"], lev] := by
  have e3 : (Method.parse co (tracingMethodTokens (tkAbs l))).lead = [.punct '.' .callSite] := by cases co <;> rfl
  have e4 : (Method.parse co (tracingMethodTokens (tkAbs l))).template = (tracingMethodTokens (tkAbs l)).tail := by
    cases co <;> rfl
  have hd := pathNames_head (src := src) (a := a) (b := b) (m := m) hl hne (mac := "one_line_stringify")
    (by simp [otherKeywords]) (tkAbs ["tracing", "event"] ++
    [tkP '!', tkParen (tkVar "level" ++ [tkP ',', tkId "path", tkP ',', tkId "line", tkP ',',
      tkId "col", tkP ',', tkId "error", tkP '=', tkP '%', tkId "e", tkP ',', tkId "expr", tkP ',']), tkP ';'])
  have e5 : scanAll (TT.spliced src) (Method.lead (Method.parse co (tracingMethodTokens (tkAbs l))) ++
      (fillToks (varToks a b m) false (tracingMethodTokens (tkAbs l)).tail).map (TT.setSpan sp)) =
      [.other, .name "inspect_err", .other, .other, .name "e", .other] ++ (.other ::
        scanAll (TT.spliced src) (fillToks (varToks a b m) false (presetHead (tkAbs l) "one_line_stringify" ++
        (tkAbs ["tracing", "event"] ++
    [tkP '!', tkParen (tkVar "level" ++ [tkP ',', tkId "path", tkP ',', tkId "line", tkP ',',
      tkId "col", tkP ',', tkId "error", tkP '=', tkP '%', tkId "e", tkP ',', tkId "expr", tkP ',']), tkP ';']))) ++
        [.other]) ++ [.other] := by
    rw [scanAll_append, scanAll_setSpan, e3]
    simp [tracingMethodTokens, fillToks, TT.fillToks, TT.isPunct, tkId, tkP, tkParen, tkBrace, scanAll, TT.scan]
    simp [otherKeywords]
  have e6 : scanAll (TT.spliced src) (fillToks (varToks a b m) false (tkAbs ["tracing", "event"] ++
    [tkP '!', tkParen (tkVar "level" ++ [tkP ',', tkId "path", tkP ',', tkId "line", tkP ',',
      tkId "col", tkP ',', tkId "error", tkP '=', tkP '%', tkId "e", tkP ',', tkId "expr", tkP ',']), tkP ';'])) =
      [.colon, .colon, .name "tracing", .colon, .colon, .name "event", .other, .other] ++ .other ::
        (lev.flatMap (fun x => [.colon, .colon, .name x]) ++ .other ::
        [.other, .name "path", .other, .name "line", .other, .name "col", .other, .name "error", .other, .other,
          .name "e", .other, .name "expr", .other, .other, .other]) := by
    simp [tkVar, tkAbs, tkP, tkId, tkParen, fillToks, TT.fillToks, TT.isPunct, varToks, hv, scanAll, TT.scan]
    have := spliced_level (src := src) h1 h2 .callSite
    rw [TT.scan] at this
    simp [this, otherKeywords]
  rw [templateNames, e4, e5, absolutePaths_between, hd, e6, absolutePaths_other, absolutePaths_abs hlev]
  simp [absolutePaths, pathNames]

theorem names_context {l : List String} (hl : ∀ x ∈ l, x ∉ otherKeywords) (hne : l ≠ []) :
    templateNames src a b m sp (Method.parse co (anyhowMethodTokens (tkAbs l))) =
      [l ++ ["excerpted_pretty_stringify"]] ∧
    templateNames src a b m sp (Method.parse co (eyreMethodTokens (tkAbs l))) =
      [l ++ ["excerpted_pretty_stringify"]] := by
  have hd := pathNames_head (src := src) (a := a) (b := b) (m := m) hl hne (mac := "excerpted_pretty_stringify")
    (by simp [otherKeywords]) [tkId "format", tkP '!', tkParen [tkStr "[{path}:{line}:{col}]\n{expr}"]]
  have key : ∀ x, x ∉ otherKeywords → absolutePaths false (scanAll (TT.spliced src) ([.punct '.' .callSite] ++
      (fillToks (varToks a b m) false [tkId x, tkParen ([tkP '|', tkP '|'] ++ [tkBrace (
    presetHead (tkAbs l) "excerpted_pretty_stringify" ++
    [tkId "format", tkP '!', tkParen [tkStr "[{path}:{line}:{col}]\n{expr}"]])])]).map (TT.setSpan sp))) =
      [l ++ ["excerpted_pretty_stringify"]] := by
    intro x hx
    have e5 : scanAll (TT.spliced src) ([.punct '.' .callSite] ++
      (fillToks (varToks a b m) false [tkId x, tkParen ([tkP '|', tkP '|'] ++ [tkBrace (
    presetHead (tkAbs l) "excerpted_pretty_stringify" ++
    [tkId "format", tkP '!', tkParen [tkStr "[{path}:{line}:{col}]\n{expr}"]])])]).map (TT.setSpan sp)) =
      [.other, .name x, .other, .other, .other] ++ (.other ::
        scanAll (TT.spliced src) (fillToks (varToks a b m) false (presetHead (tkAbs l) "excerpted_pretty_stringify" ++
        [tkId "format", tkP '!', tkParen [tkStr "[{path}:{line}:{col}]\n{expr}"]])) ++ [.other]) ++ [.other] := by
      rw [scanAll_append, scanAll_setSpan]
      simp [fillToks, TT.fillToks, TT.isPunct, tkId, tkP, tkParen, tkBrace, scanAll, TT.scan, hx]
    rw [e5, absolutePaths_between, hd]
    simp [tkP, tkId, tkParen, tkStr, fillToks, TT.fillToks, TT.isPunct, scanAll, TT.scan, otherKeywords, absolutePaths]
  have e1 : (Method.parse co (anyhowMethodTokens (tkAbs l))).lead = [.punct '.' .callSite] := by cases co <;> rfl
  have e2 : (Method.parse co (anyhowMethodTokens (tkAbs l))).template = (anyhowMethodTokens (tkAbs l)).tail := by
    cases co <;> rfl
  have e3 : (Method.parse co (eyreMethodTokens (tkAbs l))).lead = [.punct '.' .callSite] := by cases co <;> rfl
  have e4 : (Method.parse co (eyreMethodTokens (tkAbs l))).template = (eyreMethodTokens (tkAbs l)).tail := by
    cases co <;> rfl
  rw [templateNames, templateNames, e1, e2, e3, e4]
  exact ⟨key "with_context" (by simp [otherKeywords]), key "wrap_err_with" (by simp [otherKeywords])⟩

theorem names_empty : templateNames src a b m sp (Method.parse co emptyMethodTokens) = [] := by
  have e3 : (Method.parse co emptyMethodTokens).lead = [] := by cases co <;> rfl
  have e4 : (Method.parse co emptyMethodTokens).template = emptyMethodTokens := by cases co <;> rfl
  rw [templateNames, e3, e4]
  simp [emptyMethodTokens, tkVar, tkP, tkId, fillToks, TT.isPunct, varToks, scanAll, TT.setSpan, TT.scan, TT.spliced,
    absolutePaths]

theorem names_hook (q : List String) : q ∈ templateNames src a b m sp (Method.parse co hookMethodTokens) ↔
    q = ["hooq", "HooqMeta"] ∨ q = ["std", "collections", "HashMap", "from"] ∨
      m.bindings ≠ [] ∧ (q = ["hooq", "BindingPayload"] ∨ q ∈ payloadNames) := by
  have e3 : (Method.parse co hookMethodTokens).lead = [.punct '.' .callSite] := by cases co <;> rfl
  have e4 : (Method.parse co hookMethodTokens).template = hookMethodTokens.tail := by cases co <;> rfl
  have e5 : scanAll (TT.spliced src) ([.punct '.' .callSite] ++
      (fillToks (varToks a b m) false hookMethodTokens.tail).map (TT.setSpan sp)) =
      [.other, .name "hook", .other, .other, .other, .other] ++ (.other ::
        scanAll (fun _ => [.other]) (metaTokens src m) ++ [.other]) ++ [.other, .other] := by
    rw [scanAll_append, scanAll_setSpan]
    simp [hookMethodTokens, tkVar, tkP, tkId, tkParen, tkBrace, fillToks, TT.fillToks, TT.isPunct, varToks, scanAll,
      TT.scan, TT.spliced]
    simp [otherKeywords]
  rw [templateNames, e3, e4, e5, absolutePaths_between, List.mem_append, List.mem_append, names_meta]
  simp [absolutePaths]

end

end Hooq
