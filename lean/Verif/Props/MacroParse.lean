import Verif.Spec.MacroParse
import Verif.Props.Erase

/-!
# Reading macro bodies (C54)
-/

namespace Hooq

theorem atEnd_iff (r : List TT) : atEnd r = true ↔ Stops r := by
  cases r with
  | nil => simp [atEnd, Stops]
  | cons t r => simp [atEnd, Stops, or_comm]

theorem attempt_some {α : Type} {p : List TT → Option (α × List TT)} {ts : List TT} {a : α} {r : List TT} :
    attempt p ts = some (a, r) ↔ p ts = some (a, r) ∧ Stops r := by
  simp only [attempt]
  cases h : p ts with
  | none => simp
  | some x =>
    obtain ⟨b, r'⟩ := x
    by_cases he : atEnd r' = true
    · simp only [he, if_true, Option.some.injEq, Prod.mk.injEq]
      constructor
      · rintro ⟨rfl, rfl⟩; exact ⟨⟨rfl, rfl⟩, (atEnd_iff _).1 he⟩
      · exact fun h => h.1
    · simp only [he, Option.some.injEq, Prod.mk.injEq]
      constructor
      · simp
      · rintro ⟨⟨rfl, rfl⟩, hs⟩; exact absurd ((atEnd_iff _).2 hs) he

theorem attempt_none {α : Type} {p : List TT → Option (α × List TT)} {ts : List TT} :
    attempt p ts = none ↔ ∀ a r, p ts = some (a, r) → ¬ Stops r := by
  constructor
  · intro h a r h1 h2
    rw [attempt_some.2 ⟨h1, h2⟩] at h; cases h
  · intro h
    cases h1 : attempt p ts with
    | none => rfl
    | some x =>
      obtain ⟨a, r⟩ := x
      obtain ⟨h2, h3⟩ := attempt_some.1 h1
      exact absurd h3 (h a r h2)

/-- The piece of a parsed file. -/
def fileP (x : List Attr × List Item) : EvPiece := .file x.1 x.2

/-- C54.  A piece is read in the first of the ways file, item, expression, statement that
reads up to a separator or the end. -/
theorem C54_piece (P : SynParsers) (ts : List TT) (p : EvPiece) (r : List TT) :
    parsePiece P ts = some (p, r) ↔ Chosen P ts p r := by
  have no {α : Type} {q : List TT → Option (α × List TT)} {f : α → EvPiece}
      (h : attempt q ts = none) : ∀ p' r', (q ts).map (fun x => (f x.1, x.2)) = some (p', r') → ¬ Stops r' := by
    intro p' r' h1
    obtain ⟨x, h2, h3⟩ := Option.map_eq_some_iff.1 h1
    cases h3
    exact attempt_none.1 h _ _ h2
  have yes {α : Type} {q : List TT → Option (α × List TT)} {f : α → EvPiece} {p' : EvPiece} {r' : List TT}
      (h : (q ts).map (fun x => (f x.1, x.2)) = some (p', r')) (hs : Stops r') :
      ∃ a, attempt q ts = some (a, r') ∧ p' = f a := by
    obtain ⟨x, h2, h3⟩ := Option.map_eq_some_iff.1 h
    cases h3
    exact ⟨x.1, attempt_some.2 ⟨h2, hs⟩, rfl⟩
  have none' {α : Type} {q : List TT → Option (α × List TT)} {f : α → EvPiece}
      (h : ∀ p' r', (q ts).map (fun x => (f x.1, x.2)) = some (p', r') → ¬ Stops r') :
      attempt q ts = none := by
    refine attempt_none.2 fun a r' h1 => h (f a) r' ?_
    rw [h1]; rfl
  constructor
  · intro h
    simp only [parsePiece] at h
    split at h
    · rename_i f r' h1
      obtain ⟨rfl, rfl⟩ := h
      obtain ⟨h2, h3⟩ := attempt_some.1 h1
      refine ⟨[], _, _, rfl, ?_, h3, by simp⟩
      simp [h2]
    · rename_i h1
      split at h
      · rename_i i r' h2
        obtain ⟨rfl, rfl⟩ := h
        obtain ⟨h2, h3⟩ := attempt_some.1 h2
        refine ⟨[_], _, _, rfl, ?_, h3, ?_⟩
        · simp [h2]
        · simp only [List.mem_singleton, forall_eq]; exact no (f := fileP) h1
      · rename_i h2
        split at h
        · rename_i e r' h3
          obtain ⟨rfl, rfl⟩ := h
          obtain ⟨h3, h4⟩ := attempt_some.1 h3
          refine ⟨[_, _], _, _, rfl, ?_, h4, ?_⟩
          · simp [h3]
          · simp only [List.mem_cons, List.not_mem_nil, or_false, forall_eq_or_imp, forall_eq]
            exact ⟨no (f := fileP) h1, no h2⟩
        · rename_i h3
          split at h
          · rename_i s r' h4
            obtain ⟨rfl, rfl⟩ := h
            obtain ⟨h4, h5⟩ := attempt_some.1 h4
            refine ⟨[_, _, _], _, _, rfl, ?_, h5, ?_⟩
            · simp [h4]
            · simp only [List.mem_cons, List.not_mem_nil, or_false, forall_eq_or_imp, forall_eq]
              exact ⟨no (f := fileP) h1, no h2, no h3⟩
          · cases h
  · rintro ⟨before, way, after, hw, h1, h2, h3⟩
    simp only [SynParsers.ways] at hw
    match before, hw with
    | [], hw =>
      simp only [List.nil_append, List.cons.injEq] at hw
      obtain ⟨rfl, -⟩ := hw
      obtain ⟨a, h4, rfl⟩ := yes (f := fileP) h1 h2
      simp [parsePiece, h4, fileP]
    | [_], hw =>
      simp only [List.cons_append, List.nil_append, List.cons.injEq] at hw
      obtain ⟨rfl, rfl, -⟩ := hw
      simp only [List.mem_singleton, forall_eq] at h3
      obtain ⟨a, h4, rfl⟩ := yes (f := .item) h1 h2
      have n1 := none' (f := fileP) h3
      simp [parsePiece, h4, n1]
    | [_, _], hw =>
      simp only [List.cons_append, List.nil_append, List.cons.injEq] at hw
      obtain ⟨rfl, rfl, rfl, -⟩ := hw
      simp only [List.mem_cons, List.not_mem_nil, or_false, forall_eq_or_imp, forall_eq] at h3
      obtain ⟨a, h4, rfl⟩ := yes (f := .expr) h1 h2
      have n1 := none' (f := fileP) h3.1
      have n2 := none' (f := .item) h3.2
      simp [parsePiece, h4, n1, n2]
    | [_, _, _], hw =>
      simp only [List.cons_append, List.nil_append, List.cons.injEq] at hw
      obtain ⟨rfl, rfl, rfl, rfl, -⟩ := hw
      simp only [List.mem_cons, List.not_mem_nil, or_false, forall_eq_or_imp, forall_eq] at h3
      obtain ⟨a, h4, rfl⟩ := yes (f := .stmt) h1 h2
      have n1 := none' (f := fileP) h3.1
      have n2 := none' (f := .item) h3.2.1
      have n3 := none' (f := .expr) h3.2.2
      simp [parsePiece, h4, n1, n2, n3]
    | _ :: _ :: _ :: _ :: _, hw => simp at hw

theorem Chosen.way {P : SynParsers} {ts : List TT} {p : EvPiece} {r : List TT} (h : Chosen P ts p r) :
    (∃ w ∈ P.ways, w ts = some (p, r)) ∧ Stops r := by
  obtain ⟨b, w, a, hw, h1, h2, -⟩ := h
  exact ⟨⟨w, by rw [hw]; simp, h1⟩, h2⟩

theorem punct_not_both {t : TT} (h : t.isPunct ';' = true) : t.isPunct ',' = false := by
  cases t <;> simp_all [TT.isPunct]

theorem withSep_piece (v : Ev) : v.piece.withSep v.sep = v := by cases v <;> rfl

theorem piece_withSep (p : EvPiece) (s : Sep) : (p.withSep s).piece = p ∧ (p.withSep s).sep = s := by
  cases p <;> exact ⟨rfl, rfl⟩

theorem takeSep_length (r : List TT) : (takeSep r).2.length ≤ r.length := by
  cases r with
  | nil => simp [takeSep]
  | cons t r =>
    simp only [takeSep]
    split
    · simp
    · split <;> simp

/-- C54.  The fuel of the loop does not matter: a result does not change with more of it,
and the number of tokens is enough for parsers that read something whenever they succeed. -/
theorem C54_fuel {P : SynParsers} (hr : P.Reading) {n : Nat} {ts : List TT} (hn : ts.length ≤ n) :
    parseEvs P n ts = parseEvs P ts.length ts := by
  induction n using Nat.strongRecOn generalizing ts with
  | ind n ih =>
    cases ts with
    | nil => cases n <;> simp [parseEvs]
    | cons t ts =>
      cases n with
      | zero => simp at hn
      | succ n =>
        simp only [List.length_cons, parseEvs]
        cases h : parsePiece P (t :: ts) with
        | none => rfl
        | some x =>
          obtain ⟨p, r⟩ := x
          obtain ⟨⟨w, hw, h1⟩, -⟩ := ((C54_piece P _ _ _).1 h).way
          have hl := hr w hw _ _ _ h1
          have hl2 := takeSep_length r
          simp only [List.length_cons] at hl hn
          have a := ih n (by omega) (ts := (takeSep r).2) (by omega)
          have b := ih ts.length (by omega) (ts := (takeSep r).2) (by omega)
          simp only [a, b]

theorem parseEvs_body {P : SynParsers} : ∀ (n : Nat) {ts : List TT} {evs : List Ev},
    parseEvs P n ts = some evs → BodyOf P ts evs := by
  intro n
  induction n with
  | zero =>
    intro ts evs h
    cases ts with
    | nil => simp only [parseEvs, Option.some.injEq] at h; subst h; exact .nil
    | cons t ts => simp [parseEvs] at h
  | succ n ih =>
    intro ts evs h
    cases ts with
    | nil => simp only [parseEvs, Option.some.injEq] at h; subst h; exact .nil
    | cons t ts =>
      simp only [parseEvs] at h
      split at h
      · cases h
      · rename_i p r hp
        have hc := (C54_piece P _ _ _).1 hp
        split at h
        · cases h
        · rename_i l hl
          obtain rfl := Option.some.inj h
          have hb := ih hl
          have hpw := piece_withSep p
          rcases hc.way.2 with rfl | ⟨u, r', rfl, hu⟩
          · simp only [takeSep] at hb ⊢
            cases hb with
            | nil => exact .last (by simp) (by rw [(hpw _).1]; exact hc) (hpw _).2
            | last hn => exact absurd rfl hn
            | comma hn => exact absurd rfl hn
            | semi hn => exact absurd rfl hn
          · by_cases hcm : u.isPunct ',' = true
            · simp only [takeSep, hcm, if_true] at hb ⊢
              exact .comma (by simp) hcm (by rw [(hpw _).1]; exact hc) (hpw _).2 hb
            · have hsm : u.isPunct ';' = true := hu.resolve_left hcm
              simp only [takeSep, punct_not_both hsm, hsm, if_true] at hb ⊢
              exact .semi (by simp) hsm (by rw [(hpw _).1]; exact hc) (hpw _).2 hb

theorem body_parseEvs {P : SynParsers} (hr : P.Reading) {ts : List TT} {evs : List Ev}
    (h : BodyOf P ts evs) : parseEvs P ts.length ts = some evs := by
  have step : ∀ {ts r : List TT} {v : Ev}, ts ≠ [] → Chosen P ts v.piece r →
      ∃ n, ts.length = n + 1 ∧ (takeSep r).2.length ≤ n ∧ parsePiece P ts = some (v.piece, r) := by
    intro ts r v hne hc
    obtain ⟨⟨w, hw, h1⟩, -⟩ := hc.way
    have := hr w hw _ _ _ h1
    have h2 := takeSep_length r
    exact ⟨ts.length - 1, by omega, by omega, (C54_piece P _ _ _).2 hc⟩
  have run : ∀ {ts r : List TT} {v : Ev} {vs : List Ev}, ts ≠ [] → Chosen P ts v.piece r →
      (takeSep r).1 = v.sep → parseEvs P (takeSep r).2.length (takeSep r).2 = some vs →
      parseEvs P ts.length ts = some (v :: vs) := by
    intro ts r v vs hne hc hs hv
    obtain ⟨n, h1, h2, h3⟩ := step hne hc
    cases ts with
    | nil => exact absurd rfl hne
    | cons t ts =>
      rw [h1]
      simp only [parseEvs, h3, C54_fuel hr h2, hv, hs, withSep_piece]
  induction h with
  | nil => rfl
  | last hne hc hs => exact run hne hc hs.symm rfl
  | comma hne ht hc hs _ ih =>
    refine run hne hc ?_ ?_ <;> simp only [takeSep, ht, if_true]
    · exact hs.symm
    · exact ih
  | semi hne ht hc hs _ ih =>
    refine run hne hc ?_ ?_ <;> simp [takeSep, punct_not_both ht, ht]
    · exact hs.symm
    · exact ih

/-- C54.  A body is read as a list exactly if it is a sequence of pieces with separators
between them, each read in the first way that reaches a separator or the end; otherwise
it is left alone as a whole. -/
theorem C54_read {P : SynParsers} (hr : P.Reading) (ts : List TT) :
    (∀ evs, readBody P ts = .parsed evs ↔ BodyOf P ts evs) ∧
    ((∀ evs, ¬ BodyOf P ts evs) → readBody P ts = .raw ts) := by
  simp only [readBody]
  constructor
  · intro evs
    constructor
    · intro h
      split at h
      · rename_i l hl
        obtain rfl := MacBody.parsed.inj h
        exact parseEvs_body _ hl
      · cases h
    · intro h
      rw [body_parseEvs hr h]
  · intro h
    split
    · rename_i l hl
      exact absurd (parseEvs_body _ hl) (h l)
    · rfl

/-- C54.  No token of a body is lost, added or moved: the tokens are the pieces in order
with their separators. -/
theorem C54_cover {P : SynParsers} {pr : EvPiece → List TT} (hf : P.Faithful pr) {ts : List TT} {evs : List Ev}
    (h : readBody P ts = .parsed evs) : Spelled pr evs ts := by
  simp only [readBody] at h
  split at h
  · rename_i l hl
    obtain rfl := MacBody.parsed.inj h
    have hb := parseEvs_body _ hl
    clear hl h
    have eq : ∀ {ts r : List TT} {p : EvPiece}, Chosen P ts p r → ts = pr p ++ r := by
      intro ts r p hc
      obtain ⟨⟨w, hw, h1⟩, -⟩ := hc.way
      exact hf w hw _ _ _ h1
    induction hb with
    | nil => exact .nil
    | last _ hc hs =>
      rw [eq hc]
      have := Spelled.cons (pr := pr) (s := []) (show (Ev.sep _).Prints [] by rw [hs]; rfl) .nil
      simpa using this
    | @comma ts r t v vs _ ht hc hs _ ih =>
      rw [eq hc]
      have := Spelled.cons (pr := pr) (s := [t]) (show v.sep.Prints [t] by rw [hs]; exact ⟨t, rfl, ht⟩) ih
      simpa using this
    | @semi ts r t v vs _ ht hc hs _ ih =>
      rw [eq hc]
      have := Spelled.cons (pr := pr) (s := [t]) (show v.sep.Prints [t] by rw [hs]; exact ⟨t, rfl, ht⟩) ih
      simpa using this
  · cases h

/-- C54.  Only the last element can lack a separator. -/
theorem C54_separated {P : SynParsers} {ts : List TT} {l₁ l₂ : List Ev} {v : Ev}
    (h : readBody P ts = .parsed (l₁ ++ v :: l₂)) (hs : v.sep = .none) : l₂ = [] := by
  simp only [readBody] at h
  split at h
  · rename_i l hl
    have hb := parseEvs_body _ hl
    rw [MacBody.parsed.inj h] at hb
    clear hl h
    induction l₁ generalizing ts with
    | nil =>
      cases hb with
      | last => rfl
      | comma _ _ _ h => rw [hs] at h; cases h
      | semi _ _ _ h => rw [hs] at h; cases h
    | cons x l₁ ih =>
      generalize hz : (x :: l₁) ++ v :: l₂ = z at hb
      cases hb with
      | nil => simp at hz
      | last => simp at hz
      | comma _ _ _ _ hb => simp only [List.cons_append, List.cons.injEq] at hz; exact ih (hz.2 ▸ hb)
      | semi _ _ _ _ hb => simp only [List.cons_append, List.cons.injEq] at hz; exact ih (hz.2 ▸ hb)
  · cases h

/-- C54.  A body which is a list of items is one element. -/
theorem C54_file {P : SynParsers} {ts : List TT} {a : List Attr} {l : List Item} (hne : ts ≠ [])
    (h : P.file ts = some ((a, l), [])) : readBody P ts = .parsed [.file a l .none] := by
  cases ts with
  | nil => exact absurd rfl hne
  | cons t ts =>
    have : parsePiece P (t :: ts) = some (.file a l, []) :=
      (C54_piece P _ _ _).2 ⟨[], _, _, rfl, by simp [h], Or.inl rfl, by simp⟩
    simp [readBody, parseEvs, this, takeSep, EvPiece.withSep]

/-- C54.  If what is read at the beginning is followed by something else than a separator,
the whole body is left alone. -/
theorem C54_stuck {P : SynParsers} {ts : List TT} (hne : ts ≠ [])
    (h : ∀ w ∈ P.ways, ∀ p r, w ts = some (p, r) → ¬ Stops r) : readBody P ts = .raw ts := by
  simp only [readBody]
  split
  · rename_i l hl
    have no : ∀ {p r}, ¬ Chosen P ts p r := fun hc => by
      obtain ⟨⟨w, hw, h1⟩, h2⟩ := hc.way
      exact h w hw _ _ h1 h2
    cases parseEvs_body _ hl with
    | nil => exact absurd rfl hne
    | last _ hc => exact absurd hc no
    | comma _ _ hc => exact absurd hc no
    | semi _ _ hc => exact absurd hc no
  · rfl

/-- C54.  A body that is no such list is walked to itself, without a hook and without an
error, whatever it contains. -/
theorem C54_opaque {P : SynParsers} {ts : List TT} (hr : P.Reading) (h : ∀ evs, ¬ BodyOf P ts evs)
    (env : Env) (ctx : Ctx) (c : Counter) :
    walkMacBody env ctx (readBody P ts) c = .ok (.raw ts, c) := by
  rw [(C54_read hr ts).2 h]
  rfl

/-- C54.  The walk of the body as read: the separators and the code of the tokens are
kept, so for faithful parsers the output is spelled like the input up to hooks and inert
attributes. -/
theorem C54_walk {P : SynParsers} {pr : EvPiece → List TT} (hf : P.Faithful pr) {ts : List TT} {env : Env}
    {ctx : Ctx} {b' : MacBody} {c c' : Counter} {evs : List Ev} (h : readBody P ts = .parsed evs)
    (hw : walkMacBody env ctx (readBody P ts) c = .ok (b', c')) :
    Spelled pr evs ts ∧ b'.seps = evs.map Ev.sep ∧ cleanMacBody true b' = cleanMacBody true (.parsed evs) := by
  obtain ⟨h1, h2, -⟩ := C10_code_kept hw
  rw [h] at h1 h2
  refine ⟨C54_cover hf h, ?_, h1⟩
  rw [h2]
  simp only [MacBody.seps]
  refine List.map_congr_left fun v _ => ?_
  cases v <;> rfl

namespace Ex

/-- Parsers for the example: an expression is a name, with `?` or without; a statement is
`let x: T = y;`. -/
def toy : SynParsers where
  file := fun _ => none
  item := fun _ => none
  expr := fun
    | .ident x _ :: .punct '?' s :: r => some (.mk [] (sp 1 1) (.try_ (var x 1) s), r)
    | .ident x _ :: r => some (var x 1, r)
    | _ => none
  stmt := fun
    | .ident "let" _ :: .ident x _ :: .punct ':' _ :: .ident _ _ :: .punct '=' _ :: .ident y _ :: .punct ';' _ :: r =>
      some (.localInit [] x (var y 1) none, r)
    | _ => none

theorem toy_reading : toy.Reading := by
  intro w hw ts p r h
  simp only [SynParsers.ways, toy, List.mem_cons, List.not_mem_nil, or_false] at hw
  rcases hw with rfl | rfl | rfl | rfl
  · cases h
  · cases h
  · simp only [Option.map_eq_some_iff] at h
    obtain ⟨x, h, h2⟩ := h
    cases h2
    split at h
    · cases h; simp
    · cases h; simp
    · cases h
  · simp only [Option.map_eq_some_iff] at h
    obtain ⟨x, h, h2⟩ := h
    cases h2
    split at h
    · cases h; simp only [List.length_cons]; omega
    · cases h

/-- `a?, b;` is read as two expressions. -/
example : readBody toy [tkId "a", tkP '?', tkP ',', tkId "b", tkP ';'] =
    .parsed [.expr (.mk [] (sp 1 1) (.try_ (var "a" 1) Span.callSite)) .comma, .expr (var "b" 1) .semi] := rfl

/-- `a? b` is not a list: it is left alone, `?` included. -/
example : (∀ evs, ¬ BodyOf toy [tkId "a", tkP '?', tkId "b"] evs) ∧
    ∀ ctx c, walkMacBody env ctx (readBody toy [tkId "a", tkP '?', tkId "b"]) c =
      .ok (.raw [tkId "a", tkP '?', tkId "b"], c) := by
  have h : ∀ evs, ¬ BodyOf toy [tkId "a", tkP '?', tkId "b"] evs := by
    intro evs hb
    have := ((C54_read toy_reading _).1 evs).2 hb
    cases this
  exact ⟨h, C54_opaque toy_reading h env⟩

/-- `let x: T = y;` is read as a statement at the end of a body.  Before another statement
it is not: its semicolon is part of it, and no separator follows. -/
example :
    let l := [tkId "let", tkId "x", tkP ':', tkId "T", tkP '=', tkId "y", tkP ';']
    readBody toy l = .parsed [.stmt (.localInit [] "x" (var "y" 1) none) .none] ∧
    readBody toy (l ++ [tkId "z", tkP '?']) = .raw (l ++ [tkId "z", tkP '?']) := ⟨rfl, rfl⟩

/-- `a;, b` is not read: after the separator `;` nothing can be read at the comma. -/
example : readBody toy [tkId "a", tkP ';', tkP ',', tkId "b"] =
    .raw [tkId "a", tkP ';', tkP ',', tkId "b"] := rfl

end Ex

end Hooq
