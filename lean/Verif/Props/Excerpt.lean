import Verif.Proof.Excerpt

/-!
# Source excerpts (C42 to C47)
-/

namespace Hooq

/-! ## C42 -/

theorem folder_line_short {f : Folder} {l : List Char} (h : l.length ≤ f.maxLen) : f.line l = l := by
  simp only [Folder.line, gt_iff_lt]
  rw [if_neg (by omega)]

theorem folder_line_law {n : Nat} (hn : 2 ≤ n) (l : List Char) : TruncLaw n l ((Folder.new n).line l) := by
  simp only [TruncLaw]
  split
  · rename_i h
    apply folder_line_short
    simp only [Folder.new]
    split <;> exact h
  · rename_i h
    have hf : Folder.new n = ⟨n, (n - 2) / 2, (n - 2) - (n - 2) / 2⟩ := by
      simp only [Folder.new]; rw [if_neg (by omega)]
    rw [hf]
    generalize ha : (n - 2) / 2 = a
    generalize hb : n - 2 - a = b
    have ha' : a ≤ n - 2 := by omega
    refine ⟨l.take a, (l.drop a).take (l.length - a - b), l.drop (l.length - b), ?_, ?_, ?_⟩
    · have h1 : (l.drop a).drop (l.length - a - b) = l.drop (l.length - b) := by
        rw [List.drop_drop]; congr 1; omega
      rw [← h1, List.append_assoc, List.take_append_drop, List.take_append_drop]
    · simp only [Folder.line]
      rw [if_pos (by simpa using h), List.take_reverse]
      simp
    · simp only [Folder.line]
      rw [if_pos (by simpa using h)]
      simp only [List.length_append, List.length_take, List.length_reverse, List.length_cons,
        List.length_nil]
      omega

theorem folder_line_no_nl {f : Folder} {l : List Char} (h : '\n' ∉ l) : '\n' ∉ f.line l := by
  simp only [Folder.line]
  split
  · intro hc
    simp only [List.mem_append, List.mem_reverse] at hc
    rcases hc with (hc | hc) | hc
    · exact h (List.mem_of_mem_take hc)
    · revert hc; decide
    · exact h (by simpa using List.mem_of_mem_take hc)
  · exact h

theorem value_lines (f : Folder) {v : List Char} {ls : List (List Char)} (h : IsLines v ls) :
    IsLines (f.value v) (ls.map f.line) := by
  refine ⟨by simpa using h.1, fun l hl => ?_, by rw [Folder.value, ← h.eq]⟩
  obtain ⟨x, hx, rfl⟩ := List.mem_map.1 hl
  exact folder_line_no_nl (h.2.1 x hx)

/-- C42, partial.  For a limit of at least 2 every line of a literal is truncated by the
law.  Missing: the code does it line by line, so that the law holds for the whole text
only if it is one line (`C42_single_line_partial`), and limits 0 and 1 give `..`
(`C42_tiny`). -/
theorem C42_lines_partial {n : Nat} (hn : 2 ≤ n) {v : List Char} {ls : List (List Char)} (h : IsLines v ls) :
    ∃ ls', IsLines ((Folder.new n).value v) ls' ∧ ls'.length = ls.length ∧
      ∀ i (h1 : i < ls.length) (h2 : i < ls'.length), TruncLaw n ls[i] ls'[i] := by
  refine ⟨_, value_lines _ h, by simp, fun i h1 h2 => ?_⟩
  rw [List.getElem_map]
  exact folder_line_law hn _

/-- C42, partial: a text of one line. -/
theorem C42_single_line_partial {n : Nat} (hn : 2 ≤ n) {v : List Char} (h : '\n' ∉ v) :
    TruncLaw n v ((Folder.new n).value v) := by
  have := value_lines (Folder.new n) (v := v) (ls := [v]) ⟨by simp, by simpa using h, rfl⟩
  rw [this.2.2]
  exact folder_line_law hn v

/-- C42.  A text that is short, or all of whose lines are, stays as it is, for any limit. -/
theorem C42_short (n : Nat) {v : List Char} {ls : List (List Char)} (h : IsLines v ls)
    (hs : ∀ l ∈ ls, l.length ≤ n) : (Folder.new n).value v = v := by
  rw [(value_lines _ h).2.2]
  have : ls.map (Folder.new n).line = ls := by
    conv => rhs; rw [← List.map_id ls]
    apply List.map_congr_left
    intro l hl
    apply folder_line_short
    have := hs l hl
    simp only [Folder.new]
    split <;> exact this
  rw [this]
  exact h.2.2.symm

theorem line_idem (n : Nat) (l : List Char) : (Folder.new n).line ((Folder.new n).line l) = (Folder.new n).line l := by
  by_cases hn : 2 ≤ n
  · apply folder_line_short
    have := folder_line_law hn l
    simp only [TruncLaw] at this
    have hm : (Folder.new n).maxLen = n := by simp only [Folder.new]; split <;> rfl
    rw [hm]
    split at this
    · rw [this]; assumption
    · obtain ⟨_, _, _, _, _, h⟩ := this; omega
  · have hf : Folder.new n = ⟨n, 0, 0⟩ := by simp only [Folder.new]; rw [if_pos (by omega)]
    rw [hf]
    by_cases h : l.length > n
    · have h1 : Folder.line ⟨n, 0, 0⟩ l = ['.', '.'] := by simp [Folder.line, h]
      rw [h1]
      simp [Folder.line]
    · have h1 : Folder.line ⟨n, 0, 0⟩ l = l := folder_line_short (by simpa using h)
      rw [h1, h1]

/-- C42.  Truncating twice is the same as once, for every text and limit. -/
theorem C42_idempotent (n : Nat) (v : List Char) :
    (Folder.new n).value ((Folder.new n).value v) = (Folder.new n).value v := by
  have h1 := value_lines (Folder.new n) (isLines_split v)
  have h2 := value_lines (Folder.new n) h1
  rw [h2.2.2, h1.2.2, List.map_map]
  congr 1
  apply List.map_congr_left
  intro l _
  exact line_idem n l

/-- C42.  Without a limit the limit is 10. -/
theorem C42_default : Folder.default = Folder.new 10 := rfl

/-- C42 fails for the limits 0 and 1: a longer line becomes `..`. -/
theorem C42_tiny {n : Nat} (hn : n < 2) {v : List Char} (h : '\n' ∉ v) (hl : n < v.length) :
    (Folder.new n).value v = ['.', '.'] := by
  have hf : Folder.new n = ⟨n, 0, 0⟩ := by simp only [Folder.new]; rw [if_pos hn]
  have := value_lines (Folder.new n) (v := v) (ls := [v]) ⟨by simp, by simpa using h, rfl⟩
  rw [this.2.2, hf]
  simp [Folder.line, hl, joinWith]

/-- The claim of C42 is not true of a text with several lines: this one has eleven
characters and is kept by the limit 10. -/
example : (Folder.new 10).value "01234\n56789".toList = "01234\n56789".toList := by decide

example : (Folder.new 10).value "01234567891234".toList = "0123..1234".toList := by decide
example : IsLines "ab\ncd".toList ["ab".toList, "cd".toList] := by
  refine ⟨by simp, by decide, by decide⟩

/-! ## C43 -/

/-- Truncation of a printed token. -/
def Piece.trunc (f : Folder) (spell : List Char → List Char) (p : Piece) : Piece :=
  match p.value with
  | none => p
  | some v => { p with value := some (f.value v), text := spell (f.value v) }

mutual
theorem pieces_trunc (f : Folder) (spell : List Char → List Char) : ∀ t : PTok,
    (f.tok spell t).pieces = t.pieces.map (Piece.trunc f spell)
  | .leaf t a b c => by simp [Folder.tok, PTok.pieces, Piece.trunc]
  | .str v t a b c => by simp [Folder.tok, PTok.pieces, Piece.trunc]
  | .group d ts a b c e => by
    simp only [Folder.tok, PTok.pieces, piecesOf_trunc f spell ts, List.map_cons, List.map_append]
    simp [Piece.trunc]
theorem piecesOf_trunc (f : Folder) (spell : List Char → List Char) : ∀ ts : List PTok,
    piecesOf (f.toks spell ts) = (piecesOf ts).map (Piece.trunc f spell)
  | [] => rfl
  | t :: ts => by
    simp only [Folder.toks, piecesOf, pieces_trunc f spell t, piecesOf_trunc f spell ts, List.map_append]
end

/-- C43, partial.  Truncation keeps the number and order of tokens and their places; a
token that is no string literal of the syntax tree stays the same; a string literal
whose lines are within the limit keeps its value.  Missing: it may be spelled
differently afterwards (`C43_respelled`). -/
theorem C43_tokens_partial (spell : List Char → List Char) (n : Nat) (e : PExpr) {ps ps' : List Piece}
    (hps : ps = piecesOf e.toks) (hps' : ps' = piecesOf (truncateLitStr spell (some n) e).toks) :
    ps'.length = ps.length ∧
    ∀ i (h : i < ps.length) (h' : i < ps'.length),
      ps'[i].line = ps[i].line ∧ ps'[i].col = ps[i].col ∧ ps'[i].endCol = ps[i].endCol ∧
      (ps[i].value = none → ps'[i] = ps[i]) ∧
      ∀ v, ps[i].value = some v → ∃ v', ps'[i].value = some v' ∧ ps'[i].text = spell v' ∧
        (∀ ls, IsLines v ls → (∀ l ∈ ls, l.length ≤ n) → v' = v) ∧
        (spell v = ps[i].text → v' = v → ps'[i] = ps[i]) := by
  have hE : ps' = ps.map (Piece.trunc (Folder.new n) spell) := by
    rw [hps', hps, ← piecesOf_trunc]; rfl
  clear hps hps'
  subst hE
  refine ⟨by simp, fun i h h' => ?_⟩
  simp only [List.getElem_map]
  generalize ps[i] = p
  obtain ⟨t, v, l, c, ec⟩ := p
  cases v with
  | none => simp [Piece.trunc]
  | some v =>
    refine ⟨rfl, rfl, rfl, by simp, fun v' hv => ?_⟩
    simp only [Option.some.injEq] at hv
    subst hv
    refine ⟨_, rfl, rfl, fun ls h1 h2 => C42_short n h1 h2, fun h1 h2 => ?_⟩
    simp only [Piece.trunc, h2, h1]

/-- Even a short literal can change its spelling: `r"a"` becomes `"a"`. -/
theorem C43_respelled : piecesOf (truncateLitStr (fun v => ['"'] ++ v ++ ['"']) (some 10)
      ⟨[.str "a".toList "r\"a\"".toList 1 1 5], 1, 1⟩).toks =
    [⟨"\"a\"".toList, some "a".toList, 1, 1, 5⟩] := by decide

/-! ## C46 -/

/-- The text that `into_pretty_str` prints, without line numbers and padding. -/
def PExpr.pretty (e : PExpr) : List Char := (intoPretty e ⟨false, false, false⟩).body

theorem pretty_eq {e : PExpr} (h : e.toks ≠ []) :
    e.pretty = [' ', ' ', ' ', ' '] ++ printPieces ⟨none, none⟩ (piecesOf e.toks) := by
  simp only [PExpr.pretty, intoPretty, Bool.false_eq_true, if_false, printToks_eq, if_neg h, indent, if_true]

theorem gap_blank (p : Pen) (line col : Nat) : ∀ c ∈ p.gap line col, c = ' ' ∨ c = '\n' := by
  intro c hc
  simp only [Pen.gap] at hc
  have side : c ∈ (match p.col with
      | some c => if col > c then List.replicate (col - c) ' ' else []
      | none => []) → c = ' ' ∨ c = '\n' := by
    intro h
    split at h
    · split at h
      · exact .inl (List.eq_of_mem_replicate h)
      · simp at h
    · simp at h
  split at hc
  · split at hc
    · rcases List.mem_append.1 hc with h | h
      · exact .inr (List.eq_of_mem_replicate h)
      · exact .inl (List.eq_of_mem_replicate h)
    · exact side hc
  · exact side hc

theorem printPieces_gaps (p : Pen) (ps : List Piece) : ∃ gaps : List (List Char), gaps.length = ps.length ∧
    (∀ g ∈ gaps, ∀ c ∈ g, c = ' ' ∨ c = '\n') ∧
    printPieces p ps = (List.zipWith (fun g x => g ++ x.text) gaps ps).flatten := by
  induction ps generalizing p with
  | nil => exact ⟨[], rfl, by simp, rfl⟩
  | cons x xs ih =>
    obtain ⟨gaps, h1, h2, h3⟩ := ih ⟨some x.line, some x.endCol⟩
    refine ⟨p.gap x.line x.col :: gaps, by simp [h1], ?_, ?_⟩
    · intro g hg
      rcases List.mem_cons.1 hg with rfl | hg
      · exact gap_blank p _ _
      · exact h2 g hg
    · simp [printPieces, h3]

/-- C46.  The tokens are printed in order, and nothing but blanks and line feeds is
added. -/
theorem C46_tokens (e : PExpr) : ∃ gaps : List (List Char), gaps.length = (piecesOf e.toks).length ∧
    (∀ g ∈ gaps, ∀ c ∈ g, c = ' ' ∨ c = '\n') ∧
    e.pretty = (List.zipWith (fun g x => g ++ x.text) gaps (piecesOf e.toks)).flatten := by
  by_cases h : e.toks = []
  · exact ⟨[], by simp [h, piecesOf], by simp, by simp [PExpr.pretty, intoPretty, h, printToks]⟩
  · obtain ⟨gaps, h1, h2, h3⟩ := printPieces_gaps ⟨none, none⟩ (piecesOf e.toks)
    rw [pretty_eq h, h3]
    cases gaps with
    | nil => exact absurd (by simpa using h1.symm) (piecesOf_ne h)
    | cons g gs =>
      refine ⟨([' ', ' ', ' ', ' '] ++ g) :: gs, h1, ?_, ?_⟩
      · intro x hx c hc
        rcases List.mem_cons.1 hx with rfl | hx
        · rcases List.mem_append.1 hc with hc | hc
          · simp at hc; exact .inl hc
          · exact h2 g (by simp) c hc
        · exact h2 x (by simp [hx]) c hc
      · cases hp : piecesOf e.toks with
        | nil => exact absurd hp (piecesOf_ne h)
        | cons p ps => simp

theorem endLineOf_eq {ps : List Piece} (h : ps ≠ []) (l : Nat) : endLineOf l ps = lastLine ps := by
  cases hl : ps.getLast? with
  | none => exact absurd (List.getLast?_eq_none_iff.1 hl) h
  | some p => simp [endLineOf, lastLine, hl]

/-- C46, partial.  If no token contains a line break and the lines never go back, then the printed
lines are the source lines from that of the first token to that of the last, each with
exactly its tokens, at the columns they have in the source (the first line shifted to
column 5).  Missing: tokens with line breaks in them, see `C45_drift`. -/
theorem C46_layout_partial {e : PExpr} (h : e.toks ≠ []) (hm : Monotone (piecesOf e.toks))
    (hn : Flat (piecesOf e.toks)) : splitOnChar '\n' e.pretty = allLines (piecesOf e.toks) := by
  rw [pretty_eq h]
  cases hp : piecesOf e.toks with
  | nil => exact absurd hp (piecesOf_ne h)
  | cons p ps =>
    rw [hp] at hm hn
    have h1 : printPieces ⟨none, none⟩ (p :: ps) = printPieces ⟨some p.line, some p.col⟩ (p :: ps) := by
      simp only [printPieces]
      rw [gap_same (Nat.le_refl _)]
      simp [Pen.gap]
    have hle : ∀ q ∈ p :: ps, p.line ≤ q.line := by
      intro q hq
      rcases List.mem_cons.1 hq with rfl | hq
      · exact Nat.le_refl _
      · exact (List.pairwise_cons.1 hm).1 q hq
    rw [h1, splitOnChar_prefix (by decide), layout hm hle (fun q hq => (hn q hq).1), endLineOf_eq (by simp)]
    simp only [allLines, firstLine]
    rw [List.range_succ_eq_map]
    simp only [List.map_cons, List.modifyHead_cons, List.map_map, if_true]
    refine cons_congr ?_ (List.map_congr_left fun j hj => ?_)
    · simp [lineAt]
    · simp only [Function.comp, lineAt]
      rw [if_neg (by omega), if_neg (by omega)]

/-! ## C44 -/

/-- C44, partial.  An excerpt to `n ≥ 2` lines of a text of more lines is the first line,
`...`, and the last `n - 1` lines.  Missing: `n = 1`, which gives the last line only
(`C44_one`). -/
theorem C44_excerpt_partial {n : Nat} (hn : 2 ≤ n) {body : List Char} (h : n < (rustLines body).length) :
    ∃ first mid tail, rustLines body = first :: (mid ++ tail) ∧ tail.length = n - 1 ∧
      pickLines n body = joinWith ['\n'] (first :: ['.', '.', '.'] :: tail) := by
  simp only [pickLines]
  rw [if_neg (by omega), if_neg (by omega)]
  cases hl : rustLines body with
  | nil => simp [hl] at h
  | cons first rest =>
    rw [hl, List.length_cons] at h
    refine ⟨first, rest.take (rest.length - (n - 1)), rest.drop (rest.length - (n - 1)), ?_, ?_, ?_⟩
    · rw [List.take_append_drop]
    · rw [List.length_drop]; omega
    · simp only [List.length_cons]
      rw [if_pos (by omega), List.take_reverse]
      simp

/-- C44.  A text of at most `n` lines is shown in full. -/
theorem C44_full {n : Nat} (hn : 1 ≤ n) {body : List Char} (h : (rustLines body).length ≤ n) :
    pickLines n body = body ∨ pickLines n body = joinWith ['\n'] (rustLines body) := by
  simp only [pickLines]
  split
  · rename_i h1
    subst h1
    cases hl : rustLines body with
    | nil => right; rfl
    | cons x xs =>
      rw [hl, List.length_cons] at h
      have : xs = [] := List.length_eq_zero_iff.1 (by omega)
      subst this
      right; rfl
  · split
    · left; rfl
    · right
      cases hl : rustLines body with
      | nil => rfl
      | cons first rest =>
        rw [hl, List.length_cons] at h
        simp only [List.length_cons]
        rw [if_neg (by omega), List.take_of_length_le (by rw [List.length_reverse]; omega)]
        simp

/-- An excerpt to one line is the last line. -/
theorem C44_one (body : List Char) : pickLines 1 body = (rustLines body).getLast?.getD [] := by
  simp [pickLines]

/-- C44.  An excerpt to no lines is an error, and only that. -/
theorem C44_zero (spell : List Char → List Char) (s : ExcerptSetting) (e : PExpr) :
    excerpted spell s e = none ↔ s.maxLines = 0 := by
  simp only [excerpted]
  split
  · simp; omega
  · simp; omega

/-! ## C45 -/

theorem numberLines_map (w : Nat) : ∀ (n i : Nat) (m : Char) (f : Nat → List Char),
    numberLines w i m ((List.range n).map f) =
      (List.range n).map fun j => padNum w (i + j) ++ [if j = 0 then m else '|'] ++ f j
  | 0, _, _, _ => rfl
  | n + 1, i, m, f => by
    rw [List.range_succ_eq_map]
    simp only [List.map_cons, List.map_map, numberLines]
    have := numberLines_map w n (i + 1) '|' (f ∘ Nat.succ)
    rw [this]
    refine cons_congr (by simp) (List.map_congr_left fun j _ => ?_)
    simp only [Function.comp]
    rw [show i + 1 + j = i + j.succ by omega]
    simp

theorem place_mem {cur : Nat} {ps : List Piece} {c : Char} (h : c ∈ place cur ps) :
    c = ' ' ∨ ∃ p ∈ ps, c ∈ p.text := by
  induction ps generalizing cur with
  | nil => simp [place] at h
  | cons p ps ih =>
    simp only [place, List.mem_append] at h
    rcases h with (h | h) | h
    · exact .inl (List.eq_of_mem_replicate h)
    · exact .inr ⟨p, by simp, h⟩
    · rcases ih h with h | ⟨q, h1, h2⟩
      · exact .inl h
      · exact .inr ⟨q, by simp [h1], h2⟩

theorem lineAt_mem {ps : List Piece} {L : Nat} {c : Char} (h : c ∈ lineAt ps L) :
    c = ' ' ∨ ∃ p ∈ ps, c ∈ p.text := by
  cases ps with
  | nil => simp [lineAt] at h
  | cons p ps =>
    simp only [lineAt] at h
    split at h
    · rcases List.mem_append.1 h with h | h
      · simp at h; exact .inl h
      · rcases place_mem h with h | ⟨q, h1, h2⟩
        · exact .inl h
        · exact .inr ⟨q, (List.mem_filter.1 h1).1, h2⟩
    · rcases place_mem h with h | ⟨q, h1, h2⟩
      · exact .inl h
      · exact .inr ⟨q, (List.mem_filter.1 h1).1, h2⟩

theorem place_ne {cur : Nat} {ps : List Piece} {p : Piece} (hp : p ∈ ps) (ht : p.text ≠ []) :
    place cur ps ≠ [] := by
  induction ps generalizing cur with
  | nil => simp at hp
  | cons q ps ih =>
    simp only [place]
    rcases List.mem_cons.1 hp with rfl | hp
    · simp [ht]
    · simp [ih hp]

theorem lineAt_ne {ps : List Piece} {p : Piece} (hp : p ∈ ps) (ht : p.text ≠ []) :
    lineAt ps p.line ≠ [] := by
  have hf : p ∈ ps.filter (fun q => q.line = p.line) := List.mem_filter.2 ⟨hp, by simp⟩
  cases ps with
  | nil => simp at hp
  | cons q ps =>
    simp only [lineAt]
    split
    · simp
    · exact place_ne hf ht

theorem allLines_last {ps : List Piece} (hm : Monotone ps) {p : Piece} (hp : ps.getLast? = some p) (ht : p.text ≠ []) :
    (allLines ps).getLast? ≠ some [] := by
  simp only [allLines, List.range_succ, List.map_append, List.map_cons, List.map_nil, List.getLast?_concat]
  have hl : lastLine ps = p.line := by simp [lastLine, hp]
  have hf : firstLine ps ≤ p.line := by
    cases ps with
    | nil => simp at hp
    | cons q ps =>
      simp only [firstLine]
      rcases List.mem_cons.1 (List.mem_of_getLast? hp) with rfl | h
      · exact Nat.le_refl _
      · exact (List.pairwise_cons.1 hm).1 p h
  rw [hl, show firstLine ps + (p.line - firstLine ps) = p.line by omega]
  simpa using lineAt_ne (List.mem_of_getLast? hp) ht

theorem rustLines_pretty {e : PExpr} (hm : Monotone (piecesOf e.toks))
    (hn : Flat (piecesOf e.toks)) {p : Piece} (hp : (piecesOf e.toks).getLast? = some p)
    (ht : p.text ≠ []) : rustLines e.pretty = allLines (piecesOf e.toks) := by
  have h : e.toks ≠ [] := fun h => by simp [h, piecesOf] at hp
  rw [rustLines, C46_layout_partial h hm hn]
  refine linesOf_plain (fun l hl hc => ?_) (allLines_last hm hp ht)
  simp only [allLines] at hl
  obtain ⟨j, -, rfl⟩ := List.mem_map.1 hl
  rcases lineAt_mem hc with h | ⟨q, h1, h2⟩
  · revert h; decide
  · exact (hn q h1).2 h2

theorem label_eq (w n : Nat) : padNum w n = label w n := by
  have h : (toString n).toList = Nat.toDigits 10 n := by
    change (Nat.repr n).toList = _
    simp [Nat.repr]
  simp only [padNum, label, h]

theorem body_numbered {e : PExpr} {s : PrettySettings} (hs : s.showLineNum = true) :
    (intoPretty e s).body =
      joinWith ['\n'] (numberLines (padWidth e.endLine) e.startLine '>' (rustLines e.pretty)) := by
  simp only [intoPretty, hs, if_true, addLinePrefix, PExpr.pretty, Bool.false_eq_true, if_false]

/-- C45, partial.  With line numbers, each printed line is a source line with its number
in front: right-aligned, `>` after the first and `|` after the others.  Missing: tokens
that contain line breaks (string literals over several lines that are not spelled anew),
after which the numbers are wrong (`C45_drift`). -/
theorem C45_labels_partial {e : PExpr} {s : PrettySettings} (hs : s.showLineNum = true)
    (hm : Monotone (piecesOf e.toks)) (hn : Flat (piecesOf e.toks)) {p : Piece}
    (hp : (piecesOf e.toks).getLast? = some p) (ht : p.text ≠ [])
    (hst : e.startLine = firstLine (piecesOf e.toks)) :
    (intoPretty e s).body = joinWith ['\n'] (labelled (padWidth e.endLine) (piecesOf e.toks)) := by
  rw [body_numbered hs, rustLines_pretty hm hn hp ht, allLines, numberLines_map, hst, labelled]
  simp only [label_eq]

/-- C45.  All labels have the same width. -/
theorem C45_width {endLine n : Nat} (h : n ≤ endLine) : (label (padWidth endLine) n).length = padWidth endLine := by
  rw [← label_eq]
  have h1 : (Nat.toDigits 10 n).length ≤ (Nat.toDigits 10 endLine).length := by
    rw [Nat.length_toDigits_le_iff (by decide) Nat.length_toDigits_pos]
    exact Nat.lt_of_le_of_lt h
      ((Nat.length_toDigits_le_iff (by decide) Nat.length_toDigits_pos).1 (Nat.le_refl _))
  simp only [padNum, padWidth, List.length_append, List.length_replicate]
  omega

theorem padNum_mem {w n : Nat} {c : Char} (h : c ∈ padNum w n) : c = ' ' ∨ c.isDigit = true := by
  simp only [padNum, List.mem_append] at h
  rcases h with h | h
  · exact .inl (List.eq_of_mem_replicate h)
  · exact .inr (Nat.isDigit_of_mem_toDigits (by decide) (by decide) h)

theorem labelled_lines {w : Nat} {ps : List Piece} (hn : Flat ps) :
    rustLines (joinWith ['\n'] (labelled w ps)) = labelled w ps := by
  have mem : ∀ l ∈ labelled w ps, '\n' ∉ l ∧ '\r' ∉ l ∧ l ≠ [] := by
    intro l hl
    simp only [labelled] at hl
    obtain ⟨j, -, rfl⟩ := List.mem_map.1 hl
    rw [← label_eq]
    have key : ∀ c, (c = '\n' ∨ c = '\r') → c ∉ padNum w (firstLine ps + j) ++ [if j = 0 then '>' else '|'] ++
        lineAt ps (firstLine ps + j) := by
      intro c hc h
      simp only [List.mem_append, List.mem_singleton] at h
      rcases h with (h | h) | h
      · rcases padNum_mem h with h | h <;> rcases hc with rfl | rfl <;> revert h <;> decide
      · split at h <;> rcases hc with rfl | rfl <;> revert h <;> decide
      · rcases lineAt_mem h with h | ⟨q, h1, h2⟩
        · rcases hc with rfl | rfl <;> revert h <;> decide
        · rcases hc with rfl | rfl
          · exact (hn q h1).1 h2
          · exact (hn q h1).2 h2
    exact ⟨key _ (.inl rfl), key _ (.inr rfl), by simp⟩
  refine rustLines_join ?_ (fun l hl => (mem l hl).1) (fun l hl => (mem l hl).2.1) ?_
  · simp [labelled]
  · intro h
    exact (mem [] (List.mem_of_getLast? h)).2.2 rfl

/-- C45, partial.  The excerpt with line numbers: of the numbered source lines it shows
all, if they are at most `maxLines`, or else the first, `...` and the last
`maxLines - 1`.  Missing: as for `C45_labels_partial` and `C44_excerpt_partial`. -/
theorem C45_excerpt_partial (spell : List Char → List Char) {s : ExcerptSetting} {e e' : PExpr}
    (he : e' = shortened spell s.trunc e) (hs : s.pretty.showLineNum = true) (hmax : 2 ≤ s.maxLines)
    (hm : Monotone (piecesOf e'.toks)) (hn : Flat (piecesOf e'.toks)) {p : Piece}
    (hp : (piecesOf e'.toks).getLast? = some p) (ht : p.text ≠ [])
    (hst : e'.startLine = firstLine (piecesOf e'.toks)) :
    ∃ shown, excerpted spell s e = some (
        (if s.pretty.topPadding then List.replicate (padWidth e'.endLine) ' ' ++ ['|', '\n'] else []) ++
        joinWith ['\n'] shown ++
        (if s.pretty.bottomPadding then '\n' :: List.replicate (padWidth e'.endLine) ' ' ++ ['|'] else [])) ∧
      if (labelled (padWidth e'.endLine) (piecesOf e'.toks)).length ≤ s.maxLines
      then shown = labelled (padWidth e'.endLine) (piecesOf e'.toks)
      else ∃ first mid tail, labelled (padWidth e'.endLine) (piecesOf e'.toks) = first :: (mid ++ tail) ∧
        tail.length = s.maxLines - 1 ∧ shown = first :: ['.', '.', '.'] :: tail := by
  have hb := C45_labels_partial (s := s.pretty) hs hm hn hp ht hst
  have hl := labelled_lines (w := padWidth e'.endLine) hn
  rw [← hb] at hl
  have hex : excerpted spell s e = some ((intoPretty e' s.pretty).top ++
      pickLines s.maxLines (intoPretty e' s.pretty).body ++ (intoPretty e' s.pretty).bottom) := by
    simp only [excerpted, applyTrunc_eq]
    rw [if_neg (by omega), ← he]
    rfl
  have h1 : (intoPretty e' s.pretty).top =
      if s.pretty.topPadding then List.replicate (padWidth e'.endLine) ' ' ++ ['|', '\n'] else [] := by
    simp only [intoPretty, hs, if_true, addLinePrefix]
  have h2 : (intoPretty e' s.pretty).bottom =
      if s.pretty.bottomPadding then '\n' :: List.replicate (padWidth e'.endLine) ' ' ++ ['|'] else [] := by
    simp only [intoPretty, hs, if_true, addLinePrefix]
  rw [hex, h1, h2]
  by_cases hle : (labelled (padWidth e'.endLine) (piecesOf e'.toks)).length ≤ s.maxLines
  · simp only [if_pos hle]
    refine ⟨_, ?_, rfl⟩
    rcases C44_full (n := s.maxLines) (body := (intoPretty e' s.pretty).body) (by omega)
        (by rw [hl]; exact hle) with h | h
    · rw [h, hb]
    · rw [h, hl]
  · simp only [if_neg hle]
    obtain ⟨first, mid, tail, h1, h2, h3⟩ := C44_excerpt_partial hmax
      (body := (intoPretty e' s.pretty).body) (by rw [hl]; omega)
    exact ⟨_, by rw [h3], first, mid, tail, by rw [← hl]; exact h1, h2, rfl⟩

/-! ## C47 -/

/-- C47.  The output is one line: it contains no line feed, even if tokens do. -/
theorem C47_one_line (ws : Char → Bool) (spell : List Char → List Char) (t : Option (Option Nat)) (e : PExpr) :
    '\n' ∉ oneLine ws spell t e := by
  intro h
  simp only [oneLine, applyTrunc_eq] at h
  rcases joinWith_mem h with h | ⟨l, h1, h2⟩
  · revert h; decide
  · obtain ⟨l0, h3, rfl⟩ := List.mem_map.1 h1
    exact rustLines_no_nl h3 (trim_mem h2)

theorem filter_dropWhile {α : Type} (f : α → Bool) (l : List α) :
    (l.dropWhile f).filter (fun x => !f x) = l.filter (fun x => !f x) := by
  induction l with
  | nil => rfl
  | cons x xs ih =>
    by_cases h : f x = true
    · rw [List.dropWhile_cons_of_pos h, ih, List.filter_cons_of_neg (by simp [h])]
    · rw [List.dropWhile_cons_of_neg h]

theorem filter_trim (ws : Char → Bool) (s : List Char) :
    (trim ws s).filter (fun c => !ws c) = s.filter (fun c => !ws c) := by
  simp only [trim]
  rw [List.filter_reverse, filter_dropWhile, List.filter_reverse, List.reverse_reverse, filter_dropWhile]

theorem filter_join {f : Char → Bool} {sep : List Char} (hs : sep.filter f = []) (ls : List (List Char)) :
    (joinWith sep ls).filter f = (ls.map (List.filter f)).flatten := by
  induction ls with
  | nil => rfl
  | cons x l ih =>
    cases l with
    | nil => simp [joinWith]
    | cons y l => simp only [joinWith, List.filter_append, hs, ih]; simp

theorem filter_linesOf {f : Char → Bool} (hr : f '\r' = false) (ls : List (List Char)) :
    ((linesOf ls).map (List.filter f)).flatten = (ls.map (List.filter f)).flatten := by
  induction ls with
  | nil => rfl
  | cons x l ih =>
    cases l with
    | nil =>
      simp only [linesOf]
      split
      · rename_i h; simp at h; subst h; rfl
      · rfl
    | cons y l =>
      simp only [linesOf, List.map_cons, List.flatten_cons, ih]
      congr 1
      simp only [stripCR]
      split
      · rename_i h
        obtain ⟨z, rfl⟩ := List.getLast?_eq_some_iff.1 h
        simp [hr]
      · rfl

/-- C47.  The one-line output has the visible characters of the pretty output, in
order. -/
theorem C47_content {ws : Char → Bool} (h1 : ws ' ' = true) (h2 : ws '\n' = true) (h3 : ws '\r' = true)
    (spell : List Char → List Char) (t : Option (Option Nat)) (e : PExpr) :
    (oneLine ws spell t e).filter (fun c => !ws c) =
      ((shortened spell t e).pretty).filter (fun c => !ws c) := by
  simp only [oneLine, applyTrunc_eq]
  rw [filter_join (by simp [h1]), List.map_map]
  have : (List.filter fun c => !ws c) ∘ trim ws = List.filter fun c => !ws c := by
    funext s; exact filter_trim ws s
  rw [this]
  simp only [rustLines]
  rw [filter_linesOf (by simp [h3])]
  conv => rhs; rw [← join_split '\n' (shortened spell t e).pretty]
  rw [filter_join (by simp [h2])]
  rfl

/-- C47.  The one-line output is the source lines, trimmed and joined by single blanks. -/
theorem C47_lines (ws : Char → Bool) (spell : List Char → List Char) {t : Option (Option Nat)} {e e' : PExpr}
    (he : e' = shortened spell t e) (hm : Monotone (piecesOf e'.toks)) (hn : Flat (piecesOf e'.toks))
    {p : Piece} (hp : (piecesOf e'.toks).getLast? = some p) (ht : p.text ≠ []) :
    oneLine ws spell t e = joinWith [' '] ((allLines (piecesOf e'.toks)).map (trim ws)) := by
  subst he
  simp only [oneLine, applyTrunc_eq]
  rw [← rustLines_pretty hm hn hp ht]
  rfl

/-! ## Examples -/

section

/-- `foo(` / `    1,` / `)` starting in line 9, column 5. -/
def Ex.shown : PExpr :=
  ⟨[.leaf "foo".toList 9 5 8, .group .paren [.leaf ['1'] 10 9 10, .leaf [','] 10 10 11] 9 8 11 6], 9, 11⟩

example : Ex.shown.pretty = "    foo(\n        1,\n    )".toList := by decide

/-- The hypotheses of C45, C46 and C47. -/
example : Ex.shown.toks ≠ [] ∧ Monotone (piecesOf Ex.shown.toks) ∧ Flat (piecesOf Ex.shown.toks) ∧
    (piecesOf Ex.shown.toks).getLast? = some ⟨[')'], none, 11, 5, 6⟩ ∧
    Ex.shown.startLine = firstLine (piecesOf Ex.shown.toks) := by
  refine ⟨by decide, by unfold Monotone; decide, by unfold Flat; decide, rfl, rfl⟩

example : excerpted id { ExcerptSetting.default with maxLines := 2 } Ex.shown =
    some "   9>    foo(\n...\n  11|    )\n    |".toList := by decide

example : oneLine Char.isWhitespace id none Ex.shown = "foo( 1, )".toList := by decide

/-- A literal over two lines, in a macro, is printed with its line break, which is then
added again: the token after it is on line 2 but labelled 3. -/
theorem C45_drift : (intoPretty ⟨[.leaf "\"a\nb\"".toList 1 1 3, .leaf ['x'] 2 4 5], 1, 2⟩ ⟨true, false, false⟩).body
    = "   1>    \"a\n   2|b\"\n   3|   x".toList := by decide

end

end Hooq
