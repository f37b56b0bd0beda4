import Mathlib.Data.List.Forall2
import Verif.Props.Excerpt

/-!
# Exact laws of excerpts (C62 to C64)

Companions of C42 to C46, for all limits and for tokens that contain line breaks.
-/

namespace Hooq

/-! ## C62 -/

/-- The truncation of one line for any limit: a line within the limit stays; of a longer
one the first `⌊(n - 2) / 2⌋` and the last `⌈(n - 2) / 2⌉` characters stay (none if `n` is 0
or 1), with `..` between them. -/
def TruncExact (n : Nat) (l l' : List Char) : Prop :=
  if l.length ≤ n then l' = l
  else ∃ a mid b, l = a ++ mid ++ b ∧ l' = a ++ ['.', '.'] ++ b ∧
    a.length = (n - 2) / 2 ∧ b.length = (n - 1) / 2

theorem folder_line_exact (n : Nat) (l : List Char) : TruncExact n l ((Folder.new n).line l) := by
  have hf : Folder.new n = ⟨n, (n - 2) / 2, (n - 2) - (n - 2) / 2⟩ := by
    simp only [Folder.new]
    split
    · rw [show n - 2 = 0 by omega]
    · rfl
  simp only [TruncExact]
  split
  · rename_i h
    apply folder_line_short
    rw [hf]; exact h
  · rename_i h
    rw [hf]
    generalize ha : (n - 2) / 2 = a
    generalize hb : n - 2 - a = b
    have ha' : a ≤ n - 2 := by omega
    refine ⟨l.take a, (l.drop a).take (l.length - a - b), l.drop (l.length - b), ?_, ?_, ?_, ?_⟩
    · have h1 : (l.drop a).drop (l.length - a - b) = l.drop (l.length - b) := by
        rw [List.drop_drop]; congr 1; omega
      rw [← h1, List.append_assoc, List.take_append_drop, List.take_append_drop]
    · simp only [Folder.line]
      rw [if_pos (by simpa using h), List.take_reverse]
      simp
    · rw [List.length_take]; omega
    · rw [List.length_drop]; omega

/-- C62.  A literal is truncated line by line: it keeps its number of lines, and each line
follows the law, for every limit. -/
theorem C62_value (n : Nat) {v : List Char} {ls : List (List Char)} (h : IsLines v ls) :
    ∃ ls', IsLines ((Folder.new n).value v) ls' ∧ ls'.length = ls.length ∧
      ∀ i (h1 : i < ls.length) (h2 : i < ls'.length), TruncExact n ls[i] ls'[i] := by
  refine ⟨_, value_lines _ h, by simp, fun i h1 h2 => ?_⟩
  rw [List.getElem_map]
  exact folder_line_exact n _

/-- C62.  The length of a line afterwards: at most `n`, or 2 if `n` is 0 or 1. -/
theorem C62_length {n : Nat} {l l' : List Char} (h : TruncExact n l l') :
    l'.length = if l.length ≤ n then l.length else max n 2 := by
  simp only [TruncExact] at h
  split at h
  · rename_i h1; rw [h, if_pos h1]
  · rename_i h1
    obtain ⟨a, mid, b, -, rfl, h2, h3⟩ := h
    rw [if_neg h1]
    simp only [List.length_append, List.length_cons, List.length_nil]
    omega

/-- C62.  The effect on the tokens, for every limit and for the default one (10): tokens
that are no string literals of the syntax tree are the same; string literals get the
truncated value, spelled anew. -/
theorem C62_tokens (spell : List Char → List Char) (limit : Option Nat) (e : PExpr) :
    (truncateLitStr spell limit e).startLine = e.startLine ∧
    (truncateLitStr spell limit e).endLine = e.endLine ∧
    List.Forall₂ (fun p p' : Piece => p'.line = p.line ∧ p'.col = p.col ∧ p'.endCol = p.endCol ∧
      match p.value with
      | none => p' = p
      | some v => ∃ v', p'.value = some v' ∧ p'.text = spell v' ∧
          ∃ ls ls', IsLines v ls ∧ IsLines v' ls' ∧ List.Forall₂ (TruncExact (limit.getD 10)) ls ls')
      (piecesOf e.toks) (piecesOf (truncateLitStr spell limit e).toks) := by
  refine ⟨rfl, rfl, ?_⟩
  have hE : (truncateLitStr spell limit e).toks = (Folder.new (limit.getD 10)).toks spell e.toks := by
    cases limit with
    | none => simp only [truncateLitStr, C42_default]; rfl
    | some n => rfl
  rw [hE, piecesOf_trunc]
  generalize limit.getD 10 = n
  induction piecesOf e.toks with
  | nil => exact .nil
  | cons p ps ih =>
    refine .cons ?_ ih
    obtain ⟨t, v, l, c, ec⟩ := p
    cases v with
    | none => exact ⟨rfl, rfl, rfl, rfl⟩
    | some v =>
      refine ⟨rfl, rfl, rfl, (Folder.new n).value v, rfl, rfl, splitOnChar '\n' v, _, isLines_split v,
        value_lines _ (isLines_split v), ?_⟩
      generalize splitOnChar '\n' v = ls
      induction ls with
      | nil => exact .nil
      | cons x xs ih => exact .cons (folder_line_exact n x) ih

example : (Folder.new 1).value "ab\nc\ndef".toList = "..\nc\n..".toList := by decide
example : (Folder.new 5).value "abcdefgh".toList = "a..gh".toList := by decide
example : TruncExact 0 ['a'] ['.', '.'] := ⟨[], ['a'], [], rfl, rfl, rfl, rfl⟩

/-! ## C63 -/

/-- The lines that an excerpt to `n` lines shows: the last one if `n` is 1; all, if they
are at most `n`; otherwise the first, `...` and the last `n - 1`. -/
def Shown (n : Nat) (ls shown : List (List Char)) : Prop :=
  if n = 1 then shown = ls.getLast?.toList
  else if ls.length ≤ n then shown = ls
  else ∃ first mid tail, ls = first :: (mid ++ tail) ∧ tail.length = n - 1 ∧
    shown = first :: ['.', '.', '.'] :: tail

theorem pickLines_shown {n : Nat} (hn : 1 ≤ n) (body : List Char) :
    ∃ shown, Shown n (rustLines body) shown ∧
      (pickLines n body = joinWith ['\n'] shown ∨
        n ≠ 1 ∧ (rustLines body).length ≤ n ∧ pickLines n body = body) := by
  simp only [Shown]
  by_cases h1 : n = 1
  · subst h1
    refine ⟨_, by rw [if_pos rfl], .inl ?_⟩
    rw [C44_one]
    cases (rustLines body).getLast? <;> simp [joinWith]
  · simp only [if_neg h1]
    by_cases h2 : (rustLines body).length ≤ n
    · simp only [if_pos h2]
      refine ⟨_, rfl, ?_⟩
      rcases C44_full hn h2 with h | h
      · exact .inr ⟨h1, h2, h⟩
      · exact .inl h
    · simp only [if_neg h2]
      obtain ⟨f, m, t, h3, h4, h5⟩ := C44_excerpt_partial (n := n) (by omega) (body := body) (by omega)
      exact ⟨_, ⟨f, m, t, h3, h4, rfl⟩, .inl h5⟩

/-- The lines of a text with numbers in front, from `start`. -/
def numberedFrom (w start : Nat) (ls : List (List Char)) : List (List Char) :=
  ls.mapIdx fun j l => label w (start + j) ++ [if j = 0 then '>' else '|'] ++ l

theorem numberLines_idx (w : Nat) (ls : List (List Char)) (i : Nat) (m : Char) :
    numberLines w i m ls = ls.mapIdx fun j l => label w (i + j) ++ [if j = 0 then m else '|'] ++ l := by
  induction ls generalizing i m with
  | nil => rfl
  | cons l ls ih =>
    simp only [numberLines, List.mapIdx_cons, ih, label_eq]
    refine cons_congr (by simp) ?_
    apply List.ext_getElem (by simp)
    intro k h1 h2
    simp only [List.getElem_mapIdx]
    rw [show i + 1 + k = i + (k + 1) by omega]
    simp

theorem padWidth_gutter (n : Nat) : padWidth n = gutter n := by
  simp only [padWidth, gutter]
  split
  · rename_i h
    have : (Nat.toDigits 10 n).length ≤ 4 := (Nat.length_toDigits_le_iff (by decide) (by decide)).2 h
    omega
  · rename_i h
    have : ¬ (Nat.toDigits 10 n).length ≤ 4 := fun hl => h ((Nat.length_toDigits_le_iff (by decide) (by decide)).1 hl)
    omega

/-- The text that is shown: as printed, with line numbers if they are wanted. -/
def prettyText (e : PExpr) (s : PrettySettings) : List Char :=
  if s.showLineNum then joinWith ['\n'] (numberedFrom (gutter e.endLine) e.startLine (rustLines e.pretty))
  else e.pretty

/-- The parts of a pretty-printed expression. -/
theorem intoPretty_parts (e : PExpr) (s : PrettySettings) :
    intoPretty e s = ⟨prettyText e s, padAbove s e.endLine, padBelow s e.endLine⟩ := by
  obtain ⟨n, t, b⟩ := s
  cases n
  · cases t <;> cases b <;> rfl
  · have hb := body_numbered (e := e) (s := ⟨true, t, b⟩) rfl
    rw [numberLines_idx] at hb
    rw [← show (intoPretty e ⟨true, t, b⟩).body = prettyText e ⟨true, t, b⟩ by
      rw [hb, prettyText, if_pos rfl, ← padWidth_gutter]; rfl]
    cases t <;> cases b <;> simp [intoPretty, addLinePrefix, padAbove, padBelow, padWidth_gutter]

/-- C63.  An excerpt for every limit: an error exactly for 0, and otherwise the shown
lines of the pretty-printed text between the paddings.  If all lines are shown, the text
may also be left as it is, with the line break at its end if it has one. -/
theorem C63_excerpt (spell : List Char → List Char) (s : ExcerptSetting) (e : PExpr) :
    match excerpted spell s e with
    | none => s.maxLines = 0
    | some out => s.maxLines ≠ 0 ∧ ∃ e' body shown text, e' = shortened spell s.trunc e ∧
        body = prettyText e' s.pretty ∧ Shown s.maxLines (rustLines body) shown ∧
        out = padAbove s.pretty e'.endLine ++ text ++ padBelow s.pretty e'.endLine ∧
        (text = joinWith ['\n'] shown ∨
          s.maxLines ≠ 1 ∧ (rustLines body).length ≤ s.maxLines ∧ text = body) := by
  simp only [excerpted, applyTrunc_eq]
  by_cases h : s.maxLines < 1
  · simp only [if_pos h]; omega
  · simp only [if_neg h]
    rw [intoPretty_parts]
    obtain ⟨shown, h1, h2⟩ := pickLines_shown (n := s.maxLines) (by omega)
      (prettyText (shortened spell s.trunc e) s.pretty)
    exact ⟨by omega, _, _, shown, _, rfl, rfl, h1, rfl, h2⟩

/-! ## C64 -/

/-- The white space between two tokens that follow each other: line breaks up to the
line of the second and blanks up to its column, or blanks for the distance in the line. -/
def between (a b : Piece) : List Char :=
  if a.line < b.line then List.replicate (b.line - a.line) '\n' ++ List.replicate (b.col - 1) ' '
  else List.replicate (b.col - a.endCol) ' '

/-- The tokens after `a` with white space before each. -/
def spaced (a : Piece) : List Piece → List (List Char)
  | [] => []
  | b :: ps => (between a b ++ b.text) :: spaced b ps

/-- The printed parts: the tokens with the white space before each. -/
def parts : List Piece → List (List Char)
  | [] => []
  | p :: ps => ([' ', ' ', ' ', ' '] ++ p.text) :: spaced p ps

theorem gap_between (a b : Piece) : Pen.gap ⟨some a.line, some a.endCol⟩ b.line b.col = between a b := by
  simp only [between]
  split
  · rename_i h; exact gap_next h
  · rename_i h; exact gap_same (by omega)

theorem printPieces_spaced (a : Piece) (ps : List Piece) :
    printPieces ⟨some a.line, some a.endCol⟩ ps = (spaced a ps).flatten := by
  induction ps generalizing a with
  | nil => rfl
  | cons b ps ih => simp only [printPieces, spaced, List.flatten_cons, gap_between, ih b]

/-- C64.  The printed text, exactly, for all tokens: the first after four blanks, and
between two neighbours the white space of the source. -/
theorem C64_text (e : PExpr) : e.pretty = (parts (piecesOf e.toks)).flatten := by
  by_cases h : e.toks = []
  · simp [PExpr.pretty, intoPretty, h, printToks, piecesOf, parts]
  · rw [pretty_eq h]
    cases hp : piecesOf e.toks with
    | nil => exact absurd hp (piecesOf_ne h)
    | cons p ps =>
      simp only [parts, List.flatten_cons, printPieces, printPieces_spaced]
      simp [Pen.gap]

/-- The number of line breaks in a text. -/
def breaks (s : List Char) : Nat := s.count '\n'

/-- The line breaks inside of tokens. -/
def inner (ps : List Piece) : Nat := (ps.map fun p => breaks p.text).sum

theorem breaks_append (a b : List Char) : breaks (a ++ b) = breaks a + breaks b := List.count_append

theorem breaks_blanks (n : Nat) : breaks (List.replicate n ' ') = 0 :=
  List.count_eq_zero.2 (no_nl_blanks n)

theorem breaks_between (a b : Piece) : breaks (between a b) = b.line - a.line := by
  simp only [between]
  split
  · rw [breaks_append, breaks_blanks, breaks, List.count_replicate_self]; rfl
  · rw [breaks_blanks]; omega

/-- The white space before `x`, if `pre` are the tokens before it. -/
def lead (pre : List Piece) (x : Piece) : List Char :=
  match pre.getLast? with
  | none => [' ', ' ', ' ', ' ']
  | some a => between a x

theorem spaced_append (a : Piece) (pre : List Piece) (x : Piece) (post : List Piece) :
    spaced a (pre ++ x :: post) =
      spaced a pre ++ (between (pre.getLast?.getD a) x ++ x.text) :: spaced x post := by
  induction pre generalizing a with
  | nil => rfl
  | cons b pre ih =>
    simp only [List.cons_append, spaced, ih b]
    cases pre <;> simp [List.getLast?_cons]

theorem parts_append (pre : List Piece) (x : Piece) (post : List Piece) :
    parts (pre ++ x :: post) = parts pre ++ (lead pre x ++ x.text) :: spaced x post := by
  cases pre with
  | nil => rfl
  | cons a pre =>
    simp only [List.cons_append, parts, spaced_append, lead]
    cases pre <;> simp [List.getLast?_cons]

theorem breaks_spaced {a : Piece} {ps : List Piece} (hm : Monotone (a :: ps)) :
    breaks (spaced a ps).flatten = (ps.getLast?.getD a).line - a.line + inner ps := by
  induction ps generalizing a with
  | nil => simp [breaks, inner, spaced]
  | cons b ps ih =>
    obtain ⟨h1, h2⟩ := List.pairwise_cons.1 hm
    have h3 := h1 b (by simp)
    have h5 : b.line ≤ (ps.getLast?.getD b).line := by
      cases hl : ps.getLast? with
      | none => simp
      | some c => simpa using (List.pairwise_cons.1 h2).1 c (List.mem_of_getLast? hl)
    have := ih h2
    have e1 : (b :: ps).getLast?.getD a = ps.getLast?.getD b := by
      cases ps <;> simp [List.getLast?_cons]
    simp only [spaced, List.flatten_cons, breaks_append, breaks_between, inner, List.map_cons,
      List.sum_cons, e1] at this ⊢
    omega

/-- The text printed before a token. -/
def before (pre : List Piece) (x : Piece) : List Char := (parts pre).flatten ++ lead pre x

/-- C64.  Where a token is printed: after the tokens before it, and as many lines below the
first line as in the source, plus one for each line break inside of an earlier token. -/
theorem C64_row {e : PExpr} {pre post : List Piece} {x : Piece}
    (hp : piecesOf e.toks = pre ++ x :: post) (hm : Monotone (piecesOf e.toks)) :
    (∃ B, e.pretty = before pre x ++ x.text ++ B) ∧
    breaks (before pre x) = x.line - firstLine (piecesOf e.toks) + inner pre := by
  constructor
  · refine ⟨(spaced x post).flatten, ?_⟩
    rw [C64_text, hp, parts_append]
    simp [before]
  · rw [hp] at hm ⊢
    cases pre with
    | nil => simp [before, parts, lead, breaks, inner, firstLine]
    | cons a pre =>
      have h1 : Monotone (a :: (pre ++ [x])) := by
        refine hm.sublist ?_
        rw [show a :: pre ++ x :: post = (a :: (pre ++ [x])) ++ post by simp]
        exact List.sublist_append_left _ _
      have h2 := breaks_spaced h1
      rw [show pre ++ [x] = pre ++ x :: [] from rfl, spaced_append] at h2
      have e1 : lead (a :: pre) x = between (pre.getLast?.getD a) x := by
        cases pre <;> simp [lead, List.getLast?_cons]
      have e2 : before (a :: pre) x = [' ', ' ', ' ', ' '] ++ (a.text ++ ((spaced a pre).flatten ++
          between (pre.getLast?.getD a) x)) := by
        simp [before, parts, e1]
      have h0 : breaks [' ', ' ', ' ', ' '] = 0 := by decide
      have h3 : breaks [] = 0 := rfl
      rw [e2, breaks_append, h0]
      simp only [firstLine, List.cons_append]
      simp only [List.flatten_append, List.flatten_cons, List.flatten_nil, breaks_append, spaced,
        inner, List.map_append, List.sum_append, List.map_cons, List.map_nil, List.sum_cons, List.sum_nil,
        List.getLast?_concat, Option.getD_some, h3] at h2 ⊢
      omega

theorem split_length (s : List Char) : (splitOnChar '\n' s).length = breaks s + 1 := by
  induction s with
  | nil => rfl
  | cons x xs ih =>
    simp only [splitOnChar]
    split
    · rename_i h; subst h; simp [ih, breaks]
    · rename_i h
      cases hs : splitOnChar '\n' xs with
      | nil => exact absurd hs (splitOnChar_ne _ _)
      | cons y ys => rw [hs] at ih; simp [breaks, h] at ih ⊢; exact ih

theorem split_at (A S : List Char) : ∃ init last, splitOnChar '\n' A = init ++ [last] ∧
    splitOnChar '\n' (A ++ S) = init ++ (splitOnChar '\n' S).modifyHead (last ++ ·) := by
  induction A with
  | nil =>
    refine ⟨[], [], rfl, ?_⟩
    show splitOnChar '\n' S = _
    cases splitOnChar '\n' S <;> simp
  | cons x A ih =>
    obtain ⟨init, last, h1, h2⟩ := ih
    simp only [List.cons_append, splitOnChar]
    split
    · exact ⟨[] :: init, last, by simp [h1], by simp [h2]⟩
    · cases init with
      | nil =>
        refine ⟨[], x :: last, by simp [h1], ?_⟩
        rw [h2]
        cases hs : splitOnChar '\n' S with
        | nil => exact absurd hs (splitOnChar_ne _ _)
        | cons y ys => simp
      | cons y ys => exact ⟨(x :: y) :: ys, last, by simp [h1], by simp [h2]⟩

theorem linesOf_get {ls : List (List Char)} {i : Nat} {l : List Char} (h : ls[i]? = some l) (hl : l ≠ []) :
    (linesOf ls)[i]? = some (if i + 1 < ls.length then stripCR l else l) := by
  induction ls generalizing i with
  | nil => simp at h
  | cons x xs ih =>
    cases xs with
    | nil =>
      cases i with
      | zero => simp at h; subst h; simp [linesOf, hl]
      | succ i => simp at h
    | cons y ys =>
      cases i with
      | zero => simp at h; subst h; simp [linesOf]
      | succ i =>
        simp only [List.getElem?_cons_succ] at h
        simp only [linesOf, List.getElem?_cons_succ, ih h, List.length_cons]
        congr 1
        simp

theorem stripCR_token {u t w : List Char} (ht : t ≠ []) (hr : '\r' ∉ t) :
    ∃ w', stripCR (u ++ t ++ w) = u ++ t ++ w' := by
  simp only [stripCR]
  split
  · rename_i h
    cases hw : w.getLast? with
    | none =>
      rw [List.getLast?_eq_none_iff] at hw
      subst hw
      rw [List.append_nil, List.getLast?_append] at h
      cases ht' : t.getLast? with
      | none => exact absurd (List.getLast?_eq_none_iff.1 ht') ht
      | some c =>
        rw [ht'] at h
        simp at h
        subst h
        exact absurd (List.mem_of_getLast? ht') hr
    | some c =>
      obtain ⟨z, rfl⟩ := List.getLast?_eq_some_iff.1 hw
      exact ⟨z, by rw [← List.append_assoc, List.dropLast_concat]⟩
  · exact ⟨w, rfl⟩

/-- C64.  On which of the printed lines a token without line breaks is found, even if
other tokens contain some. -/
theorem C64_line {e : PExpr} {pre post : List Piece} {x : Piece}
    (hp : piecesOf e.toks = pre ++ x :: post) (hm : Monotone (piecesOf e.toks))
    (ht : x.text ≠ []) (hx : '\n' ∉ x.text ∧ '\r' ∉ x.text) :
    ∃ u w, (rustLines e.pretty)[x.line - firstLine (piecesOf e.toks) + inner pre]? =
      some (u ++ x.text ++ w) := by
  obtain ⟨⟨B, h1⟩, h2⟩ := C64_row hp hm
  rw [← h2]
  obtain ⟨init, last, h3, h4⟩ := split_at (before pre x) (x.text ++ B)
  have h5 : init.length = breaks (before pre x) := by
    have := split_length (before pre x)
    rw [h3] at this
    simpa using this
  rw [List.append_assoc] at h1
  have h6 : ∃ w0, (splitOnChar '\n' e.pretty)[breaks (before pre x)]? = some (last ++ x.text ++ w0) := by
    rw [h1, h4, splitOnChar_prefix hx.1, ← h5]
    cases hs : splitOnChar '\n' B with
    | nil => exact absurd hs (splitOnChar_ne _ _)
    | cons b bs => exact ⟨b, by simp⟩
  obtain ⟨w0, h6⟩ := h6
  have h7 := linesOf_get h6 (by simp [ht])
  rw [rustLines, h7]
  split
  · obtain ⟨w', h⟩ := stripCR_token (u := last) (w := w0) ht hx.2
    exact ⟨last, w', by rw [h]⟩
  · exact ⟨last, w0, rfl⟩

/-- C64.  With line numbers, the printed lines are numbered consecutively from the line
where the expression starts, whatever tokens it has. -/
theorem C64_numbers (e : PExpr) {s : PrettySettings} (hs : s.showLineNum = true) :
    (intoPretty e s).body = joinWith ['\n'] (numberedFrom (padWidth e.endLine) e.startLine (rustLines e.pretty)) := by
  rw [body_numbered hs, numberLines_idx]
  rfl

theorem inner_zero (ps : List Piece) : inner ps = 0 ↔ ∀ q ∈ ps, '\n' ∉ q.text := by
  induction ps with
  | nil => simp [inner]
  | cons q qs ih =>
    simp only [inner, List.map_cons, List.sum_cons, Nat.add_eq_zero_iff, List.mem_cons,
      forall_eq_or_imp] at ih ⊢
    rw [ih, breaks, List.count_eq_zero]

/-- C64.  The number shown beside a token: its line in the source, plus one for each line
break inside of an earlier token.  So it is right exactly if there is no such break. -/
theorem C64_shown {e : PExpr} {s : PrettySettings} (hs : s.showLineNum = true)
    (hst : e.startLine = firstLine (piecesOf e.toks))
    {pre post : List Piece} {x : Piece}
    (hp : piecesOf e.toks = pre ++ x :: post) (hm : Monotone (piecesOf e.toks))
    (ht : x.text ≠ []) (hx : '\n' ∉ x.text ∧ '\r' ∉ x.text) :
    ∃ rows row m u w, (intoPretty e s).body = joinWith ['\n'] rows ∧
      rows[row]? = some (label (padWidth e.endLine) (x.line + inner pre) ++ [m] ++ (u ++ x.text ++ w)) ∧
      row = x.line - e.startLine + inner pre ∧
      (inner pre = 0 ↔ ∀ q ∈ pre, '\n' ∉ q.text) := by
  obtain ⟨u, w, h⟩ := C64_line hp hm ht hx
  have hle : firstLine (piecesOf e.toks) ≤ x.line := by
    rw [hp] at hm ⊢
    cases pre with
    | nil => exact Nat.le_refl _
    | cons a pre => exact (List.pairwise_cons.1 hm).1 x (by simp)
  refine ⟨_, _, if x.line - e.startLine + inner pre = 0 then '>' else '|', u, w, C64_numbers e hs, ?_, rfl, ?_⟩
  · rw [numberedFrom, List.getElem?_mapIdx, hst, h]
    simp only [Option.map_some]
    rw [show firstLine (piecesOf e.toks) + (x.line - firstLine (piecesOf e.toks) + inner pre) =
      x.line + inner pre by omega]
  · exact inner_zero pre

theorem parts_mem {ps : List Piece} {c : Char} (h : c ∈ (parts ps).flatten) :
    c = ' ' ∨ c = '\n' ∨ ∃ p ∈ ps, c ∈ p.text := by
  have hsp : ∀ (a : Piece) (qs : List Piece), c ∈ (spaced a qs).flatten →
      c = ' ' ∨ c = '\n' ∨ ∃ p ∈ qs, c ∈ p.text := by
    intro a qs
    induction qs generalizing a with
    | nil => intro h; simp [spaced] at h
    | cons b qs ih =>
      intro h
      simp only [spaced, List.flatten_cons, List.mem_append] at h
      rcases h with (h | h) | h
      · rw [← gap_between] at h
        rcases gap_blank _ _ _ c h with h | h
        · exact .inl h
        · exact .inr (.inl h)
      · exact .inr (.inr ⟨b, by simp, h⟩)
      · rcases ih b h with h | h | ⟨q, h1, h2⟩
        · exact .inl h
        · exact .inr (.inl h)
        · exact .inr (.inr ⟨q, by simp [h1], h2⟩)
  cases ps with
  | nil => simp [parts] at h
  | cons a ps =>
    simp only [parts, List.flatten_cons, List.mem_append] at h
    rcases h with (h | h) | h
    · simp at h; exact .inl h
    · exact .inr (.inr ⟨a, by simp, h⟩)
    · rcases hsp a ps h with h | h | ⟨q, h1, h2⟩
      · exact .inl h
      · exact .inr (.inl h)
      · exact .inr (.inr ⟨q, by simp [h1], h2⟩)

theorem numbered_lines {w start : Nat} {ls : List (List Char)} (hne : ls ≠ [])
    (hn : ∀ l ∈ ls, '\n' ∉ l) (hr : ∀ l ∈ ls, '\r' ∉ l) :
    rustLines (joinWith ['\n'] (numberedFrom w start ls)) = numberedFrom w start ls := by
  have mem : ∀ l ∈ numberedFrom w start ls, '\n' ∉ l ∧ '\r' ∉ l ∧ l ≠ [] := by
    intro l hl
    obtain ⟨j, hj, rfl⟩ := List.mem_mapIdx.1 hl
    have key : ∀ c, (c = '\n' ∨ c = '\r') → c ∉ ls[j] →
        c ∉ label w (start + j) ++ [if j = 0 then '>' else '|'] ++ ls[j] := by
      intro c hc hl h
      rw [← label_eq] at h
      simp only [List.mem_append, List.mem_singleton] at h
      rcases h with (h | h) | h
      · rcases padNum_mem h with h | h <;> rcases hc with rfl | rfl <;> revert h <;> decide
      · split at h <;> rcases hc with rfl | rfl <;> revert h <;> decide
      · exact hl h
    exact ⟨key _ (.inl rfl) (hn _ (List.getElem_mem _)), key _ (.inr rfl) (hr _ (List.getElem_mem _)), by simp⟩
  refine rustLines_join ?_ (fun l hl => (mem l hl).1) (fun l hl => (mem l hl).2.1) ?_
  · cases ls with
    | nil => exact absurd rfl hne
    | cons x xs => simp [numberedFrom]
  · intro h
    exact (mem [] (List.mem_of_getLast? h)).2.2 rfl

/-- C64.  The whole excerpt with line numbers, for every limit but 0 and all tokens (a
carriage return in a token does not survive the compiler's reading of the file): the
shown ones of the numbered lines of the printed text, between the paddings. -/
theorem C64_excerpt (spell : List Char → List Char) {s : ExcerptSetting} {e e' : PExpr}
    (he : e' = shortened spell s.trunc e) (hs : s.pretty.showLineNum = true) (hmax : 1 ≤ s.maxLines)
    (hcr : ∀ p ∈ piecesOf e'.toks, '\r' ∉ p.text) :
    ∃ shown, Shown s.maxLines (numberedFrom (padWidth e'.endLine) e'.startLine (rustLines e'.pretty)) shown ∧
      excerpted spell s e = some (
        (if s.pretty.topPadding then List.replicate (padWidth e'.endLine) ' ' ++ ['|', '\n'] else []) ++
        joinWith ['\n'] shown ++
        (if s.pretty.bottomPadding then '\n' :: List.replicate (padWidth e'.endLine) ' ' ++ ['|'] else [])) := by
  have hb := C64_numbers e' hs
  have hl : rustLines (intoPretty e' s.pretty).body =
      numberedFrom (padWidth e'.endLine) e'.startLine (rustLines e'.pretty) := by
    rw [hb]
    by_cases hne : rustLines e'.pretty = []
    · rw [hne]; rfl
    · refine numbered_lines hne (fun l hl => rustLines_no_nl hl) (fun l hl hc => ?_)
      obtain ⟨l0, h1, h2⟩ := linesOf_mem hl
      have h3 : '\r' ∈ e'.pretty := by
        rw [← join_split '\n' e'.pretty]
        have h4 := h2 _ hc
        generalize splitOnChar '\n' e'.pretty = ls at h1
        induction ls with
        | nil => simp at h1
        | cons y ys ih =>
          cases ys with
          | nil => simp only [List.mem_singleton] at h1; subst h1; exact h4
          | cons z zs =>
            simp only [joinWith, List.mem_append]
            rcases List.mem_cons.1 h1 with rfl | h1
            · exact .inl (.inl h4)
            · exact .inr (ih h1)
      rw [C64_text] at h3
      rcases parts_mem h3 with h | h | ⟨p, h5, h6⟩
      · revert h; decide
      · revert h; decide
      · exact hcr p h5 h6
  have h1 : (intoPretty e' s.pretty).top =
      if s.pretty.topPadding then List.replicate (padWidth e'.endLine) ' ' ++ ['|', '\n'] else [] := by
    simp only [intoPretty, hs, if_true, addLinePrefix]
  have h2 : (intoPretty e' s.pretty).bottom =
      if s.pretty.bottomPadding then '\n' :: List.replicate (padWidth e'.endLine) ' ' ++ ['|'] else [] := by
    simp only [intoPretty, hs, if_true, addLinePrefix]
  have hex : excerpted spell s e = some ((intoPretty e' s.pretty).top ++
      pickLines s.maxLines (intoPretty e' s.pretty).body ++ (intoPretty e' s.pretty).bottom) := by
    simp only [excerpted, applyTrunc_eq]
    rw [if_neg (by omega), ← he]
    rfl
  rw [hex, h1, h2]
  obtain ⟨shown, h3, h4⟩ := pickLines_shown hmax (intoPretty e' s.pretty).body
  rw [hl] at h3
  refine ⟨shown, h3, ?_⟩
  rcases h4 with h4 | ⟨h4, h5, h6⟩
  · rw [h4]
  · rw [h6, hb]
    rw [hl] at h5
    simp only [Shown, if_neg h4, if_pos h5] at h3
    rw [h3]

/-- `m!("a` / `b", x)`: the literal in the macro keeps its line break, so `x` on line 2 is
printed on the third line, with the number 3. -/
def Ex.drifting : PExpr :=
  ⟨[.leaf "\"a\nb\"".toList 1 1 3, .leaf ['x'] 2 4 5], 1, 2⟩

example : Monotone (piecesOf Ex.drifting.toks) ∧ Ex.drifting.startLine = firstLine (piecesOf Ex.drifting.toks) ∧
    piecesOf Ex.drifting.toks = [⟨"\"a\nb\"".toList, none, 1, 1, 3⟩] ++ ⟨['x'], none, 2, 4, 5⟩ :: [] ∧
    inner [⟨"\"a\nb\"".toList, none, 1, 1, 3⟩] = 1 ∧
    ∀ p ∈ piecesOf Ex.drifting.toks, '\r' ∉ p.text := by
  refine ⟨by unfold Monotone; decide, rfl, rfl, rfl, by decide⟩

example : excerpted id { ExcerptSetting.default with maxLines := 1 } Ex.drifting =
    some "   3|   x\n    |".toList := by decide

end Hooq
