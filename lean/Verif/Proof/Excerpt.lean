import Verif.Spec.Excerpt

/-!
# Lemmas about lines and layout
-/

namespace Hooq

/-! ## Splitting and joining -/

theorem splitOnChar_ne (c : Char) (s : List Char) : splitOnChar c s ≠ [] := by
  induction s with
  | nil => simp [splitOnChar]
  | cons x xs ih =>
    simp only [splitOnChar]
    split
    · simp
    · split <;> simp

theorem splitOnChar_self {c : Char} {s : List Char} (h : c ∉ s) : splitOnChar c s = [s] := by
  induction s with
  | nil => rfl
  | cons x xs ih =>
    simp only [List.mem_cons, not_or] at h
    simp only [splitOnChar, if_neg (Ne.symm h.1), ih h.2]

theorem splitOnChar_append (c : Char) (a b : List Char) :
    splitOnChar c (a ++ c :: b) = splitOnChar c a ++ splitOnChar c b := by
  induction a with
  | nil => simp [splitOnChar]
  | cons x xs ih =>
    simp only [List.cons_append, splitOnChar, ih]
    split
    · simp
    · cases h : splitOnChar c xs with
      | nil => exact absurd h (splitOnChar_ne c xs)
      | cons y ys => simp

theorem splitOnChar_prefix {c : Char} {a : List Char} (h : c ∉ a) (b : List Char) :
    splitOnChar c (a ++ b) = (splitOnChar c b).modifyHead (a ++ ·) := by
  induction a with
  | nil =>
    show splitOnChar c b = _
    cases splitOnChar c b <;> simp
  | cons x xs ih =>
    simp only [List.mem_cons, not_or] at h
    simp only [List.cons_append, splitOnChar, if_neg (Ne.symm h.1), ih h.2]
    cases hb : splitOnChar c b with
    | nil => exact absurd hb (splitOnChar_ne c b)
    | cons y ys => simp

theorem splitOnChar_mem {c : Char} {s l : List Char} (h : l ∈ splitOnChar c s) : c ∉ l := by
  induction s generalizing l with
  | nil => simp [splitOnChar] at h; subst h; simp
  | cons x xs ih =>
    simp only [splitOnChar] at h
    split at h
    · rcases List.mem_cons.1 h with rfl | h
      · simp
      · exact ih h
    · rename_i hx
      split at h
      · rename_i hn; exact absurd hn (splitOnChar_ne c xs)
      · rename_i y ys hy
        rcases List.mem_cons.1 h with rfl | h
        · have := ih (l := y) (by rw [hy]; simp)
          simp [Ne.symm hx, this]
        · exact ih (by rw [hy]; simp [h])

theorem join_split (c : Char) (s : List Char) : joinWith [c] (splitOnChar c s) = s := by
  induction s with
  | nil => rfl
  | cons x xs ih =>
    simp only [splitOnChar]
    split
    · rename_i hx
      subst hx
      cases h : splitOnChar x xs with
      | nil => exact absurd h (splitOnChar_ne x xs)
      | cons y ys => rw [h] at ih; simp [joinWith, ih]
    · cases h : splitOnChar c xs with
      | nil => exact absurd h (splitOnChar_ne c xs)
      | cons y ys =>
        rw [h] at ih
        cases ys with
        | nil => simpa [joinWith] using ih
        | cons z zs => simp only [joinWith] at ih ⊢; simp [← ih]

theorem split_join {c : Char} {ls : List (List Char)} (hne : ls ≠ []) (h : ∀ l ∈ ls, c ∉ l) :
    splitOnChar c (joinWith [c] ls) = ls := by
  induction ls with
  | nil => exact absurd rfl hne
  | cons x l ih =>
    cases l with
    | nil => simp only [joinWith]; exact splitOnChar_self (h x (by simp))
    | cons y l =>
      simp only [joinWith]
      rw [List.append_assoc, List.singleton_append, splitOnChar_append,
        splitOnChar_self (h x (by simp)), ih (by simp) (fun l hl => h l (by simp [hl]))]
      simp

theorem isLines_split (v : List Char) : IsLines v (splitOnChar '\n' v) :=
  ⟨splitOnChar_ne _ v, fun _ => splitOnChar_mem, (join_split _ v).symm⟩

theorem IsLines.eq {v : List Char} {ls : List (List Char)} (h : IsLines v ls) : ls = splitOnChar '\n' v := by
  rw [h.2.2, split_join h.1 h.2.1]

/-! ## Lines of a text -/

theorem linesOf_plain {ls : List (List Char)} (hr : ∀ l ∈ ls, '\r' ∉ l) (hl : ls.getLast? ≠ some []) :
    linesOf ls = ls := by
  induction ls with
  | nil => rfl
  | cons x l ih =>
    cases l with
    | nil =>
      have : x ≠ [] := fun h => hl (by simp [h])
      simp [linesOf, this]
    | cons y l =>
      simp only [linesOf]
      rw [ih (fun l h => hr l (by simp [h])) (by simpa [List.getLast?_cons_cons] using hl)]
      have : x.getLast? ≠ some '\r' := fun h => hr x (by simp) (List.mem_of_getLast? h)
      simp [stripCR, this]

theorem rustLines_join {ls : List (List Char)} (hne : ls ≠ []) (hn : ∀ l ∈ ls, '\n' ∉ l)
    (hr : ∀ l ∈ ls, '\r' ∉ l) (hl : ls.getLast? ≠ some []) : rustLines (joinWith ['\n'] ls) = ls := by
  rw [rustLines, split_join hne hn, linesOf_plain hr hl]

theorem linesOf_mem {ls : List (List Char)} {l : List Char} (h : l ∈ linesOf ls) :
    ∃ l0 ∈ ls, ∀ c ∈ l, c ∈ l0 := by
  induction ls with
  | nil => simp [linesOf] at h
  | cons x xs ih =>
    cases xs with
    | nil =>
      simp only [linesOf] at h
      split at h
      · simp at h
      · exact ⟨x, by simp, by simp at h; simp [h]⟩
    | cons y ys =>
      simp only [linesOf] at h
      rcases List.mem_cons.1 h with rfl | h
      · refine ⟨x, by simp, fun c hc => ?_⟩
        simp only [stripCR] at hc
        split at hc
        · exact (List.dropLast_sublist x).subset hc
        · exact hc
      · obtain ⟨l0, h1, h2⟩ := ih h
        exact ⟨l0, by simp [h1], h2⟩

theorem rustLines_no_nl {s l : List Char} (h : l ∈ rustLines s) : '\n' ∉ l := by
  obtain ⟨l0, h1, h2⟩ := linesOf_mem h
  exact fun hc => splitOnChar_mem h1 (h2 _ hc)

theorem joinWith_mem {sep : List Char} {ls : List (List Char)} {c : Char} (h : c ∈ joinWith sep ls) :
    c ∈ sep ∨ ∃ l ∈ ls, c ∈ l := by
  induction ls with
  | nil => simp [joinWith] at h
  | cons x l ih =>
    cases l with
    | nil => exact .inr ⟨x, by simp, by simpa [joinWith] using h⟩
    | cons y l =>
      simp only [joinWith, List.mem_append] at h
      rcases h with (h | h) | h
      · exact .inr ⟨x, by simp, h⟩
      · exact .inl h
      · rcases ih h with h | ⟨l, h1, h2⟩
        · exact .inl h
        · exact .inr ⟨l, by simp [h1], h2⟩

theorem trim_mem {ws : Char → Bool} {s : List Char} {c : Char} (h : c ∈ trim ws s) : c ∈ s := by
  simp only [trim, List.mem_reverse] at h
  have := (List.dropWhile_sublist ws).subset h
  rw [List.mem_reverse] at this
  exact (List.dropWhile_sublist ws).subset this

/-! ## Printing -/

/-- Print tokens one after the other. -/
def printPieces (p : Pen) : List Piece → List Char
  | [] => []
  | x :: xs => p.gap x.line x.col ++ x.text ++ printPieces ⟨some x.line, some x.endCol⟩ xs

/-- Where the pen is after some tokens. -/
def penAfter (p : Pen) : List Piece → Pen
  | [] => p
  | x :: xs => penAfter ⟨some x.line, some x.endCol⟩ xs

theorem printPieces_append (p : Pen) (a b : List Piece) :
    printPieces p (a ++ b) = printPieces p a ++ printPieces (penAfter p a) b := by
  induction a generalizing p with
  | nil => rfl
  | cons x a ih => simp [printPieces, penAfter, ih]

theorem penAfter_append (p : Pen) (a b : List Piece) : penAfter p (a ++ b) = penAfter (penAfter p a) b := by
  induction a generalizing p with
  | nil => rfl
  | cons x a ih => simp [penAfter, ih]

/-- The indent of the first token. -/
def indent (top : Bool) : List Char := if top then [' ', ' ', ' ', ' '] else []

theorem applyTrunc_eq (spell : List Char → List Char) (t : Option (Option Nat)) (e : PExpr) :
    applyTrunc spell t e = shortened spell t e := by cases t <;> rfl

theorem delimStart_mark (d : Delim) : delimStart d = d.openMark := by cases d <;> rfl

theorem delimEnd_mark (d : Delim) : delimEnd d = d.closeMark := by cases d <;> rfl

mutual
theorem printTok_eq (top : Bool) (p : Pen) : ∀ t : PTok,
    printTok top p t = (indent top ++ printPieces p t.pieces, penAfter p t.pieces)
  | .leaf t l c e => by simp [printTok, addTok, PTok.pieces, printPieces, penAfter, indent]
  | .str v t l c e => by simp [printTok, addTok, PTok.pieces, printPieces, penAfter, indent]
  | .group d ts l c el ec => by
    have ih := printToks_eq false ⟨some l, some (c + 1)⟩ ts
    simp only [printTok, addTok, ih, delimStart_mark, delimEnd_mark, PTok.pieces, printPieces, penAfter, printPieces_append,
      penAfter_append]
    cases ts with
    | nil => simp [indent, piecesOf, printPieces]
    | cons u us => simp [indent]
theorem printToks_eq (top : Bool) (p : Pen) : ∀ ts : List PTok,
    printToks top p ts =
      (if ts = [] then [] else indent top ++ printPieces p (piecesOf ts), penAfter p (piecesOf ts))
  | [] => by simp [printToks, piecesOf, penAfter]
  | t :: ts => by
    have h1 := printTok_eq top p t
    have h2 := printToks_eq false (penAfter p t.pieces) ts
    simp only [printToks, h1, h2, piecesOf, printPieces_append, penAfter_append]
    cases ts with
    | nil => simp [piecesOf, printPieces]
    | cons u ts => simp [indent]
end

theorem pieces_ne (t : PTok) : t.pieces ≠ [] := by cases t <;> simp [PTok.pieces]

theorem piecesOf_ne {ts : List PTok} (h : ts ≠ []) : piecesOf ts ≠ [] := by
  cases ts with
  | nil => exact absurd rfl h
  | cons t ts => simp [piecesOf, pieces_ne]

/-! ## Layout -/

theorem gap_same {l c line col : Nat} (h : line ≤ l) :
    Pen.gap ⟨some l, some c⟩ line col = List.replicate (col - c) ' ' := by
  simp only [Pen.gap, gt_iff_lt]
  rw [if_neg (by omega)]
  split
  · rfl
  · rw [show col - c = 0 by omega]; rfl

theorem gap_next {l c line col : Nat} (h : l < line) :
    Pen.gap ⟨some l, some c⟩ line col = List.replicate (line - l) '\n' ++ List.replicate (col - 1) ' ' := by
  simp only [Pen.gap, gt_iff_lt]
  rw [if_pos h]

theorem no_nl_blanks (n : Nat) : '\n' ∉ List.replicate n ' ' := by
  intro h
  have := List.eq_of_mem_replicate h
  revert this
  decide

theorem split_newlines (n : Nat) (s : List Char) :
    splitOnChar '\n' (List.replicate n '\n' ++ s) = List.replicate n [] ++ splitOnChar '\n' s := by
  induction n with
  | zero => rfl
  | succ n ih =>
    rw [List.replicate_succ, List.cons_append, List.replicate_succ, List.cons_append]
    simp only [splitOnChar, if_true, ih]

/-- The line of the last token, or `l` if there is none. -/
def endLineOf (l : Nat) (ps : List Piece) : Nat := (ps.getLast?.map (·.line)).getD l

theorem endLineOf_cons (l : Nat) (x : Piece) (xs : List Piece) :
    endLineOf l (x :: xs) = endLineOf x.line xs := by
  cases xs with
  | nil => simp [endLineOf]
  | cons y ys => simp [endLineOf, List.getLast?_cons_cons, List.getLast?_cons]

theorem le_endLineOf {l : Nat} {ps : List Piece} (hm : Monotone ps) (h : ∀ p ∈ ps, l ≤ p.line) :
    l ≤ endLineOf l ps := by
  simp only [endLineOf]
  cases hl : ps.getLast? with
  | none => simp
  | some p => simpa using h p (List.mem_of_getLast? hl)

theorem filter_nothing {xs : List Piece} {L : Nat} (h : ∀ p ∈ xs, L < p.line) :
    xs.filter (fun q => q.line = L) = [] := by
  rw [List.filter_eq_nil_iff]
  intro a ha
  have := h a ha
  simp
  omega

theorem cons_congr {α : Type} {a a' : α} {l l' : List α} (h : a = a') (h' : l = l') :
    a :: l = a' :: l' := by rw [h, h']

theorem layout {ps : List Piece} {l c : Nat} (hm : Monotone ps) (hl : ∀ p ∈ ps, l ≤ p.line)
    (hn : ∀ p ∈ ps, '\n' ∉ p.text) :
    splitOnChar '\n' (printPieces ⟨some l, some c⟩ ps) =
      (List.range (endLineOf l ps - l + 1)).map fun j =>
        place (if j = 0 then c else 1) (ps.filter fun q => q.line = l + j) := by
  induction ps generalizing l c with
  | nil => simp [printPieces, splitOnChar, endLineOf, place]
  | cons x xs ih =>
    have hm' := List.pairwise_cons.1 hm
    have hx := hl x (by simp)
    have hxn := hn x (by simp)
    have hrec := @ih x.line x.endCol hm'.2 hm'.1 (fun p hp => hn p (by simp [hp]))
    have hle := le_endLineOf (l := x.line) hm'.2 hm'.1
    rw [endLineOf_cons]
    simp only [printPieces]
    generalize hE : endLineOf x.line xs = E at hrec hle ⊢
    have body : splitOnChar '\n' (x.text ++ printPieces ⟨some x.line, some x.endCol⟩ xs) =
        (List.range (E - x.line + 1)).map fun j =>
          if j = 0 then x.text ++ place x.endCol (xs.filter fun q => q.line = x.line)
          else place 1 (xs.filter fun q => q.line = x.line + j) := by
      rw [splitOnChar_prefix hxn, hrec, List.range_succ_eq_map]
      simp only [List.map_cons, List.modifyHead_cons, List.map_map, if_true, Nat.add_zero]
      refine cons_congr rfl (List.map_congr_left fun j hj => ?_)
      simp
    rcases Nat.lt_or_ge l x.line with h | h
    · have hR : List.range (E - l + 1) =
          List.range (x.line - l) ++ (List.range (E - x.line + 1)).map (x.line - l + ·) := by
        rw [← List.range_add, show E - l + 1 = (x.line - l) + (E - x.line + 1) by omega]
      rw [gap_next h, List.append_assoc, List.append_assoc, split_newlines,
        splitOnChar_prefix (no_nl_blanks _), body, hR, List.map_append]
      congr 1
      · symm
        rw [List.eq_replicate_iff]
        refine ⟨by simp, ?_⟩
        · intro b hb
          obtain ⟨j, hj, rfl⟩ := List.mem_map.1 hb
          rw [List.mem_range] at hj
          rw [filter_nothing]
          · rfl
          · intro p hp
            rcases List.mem_cons.1 hp with rfl | hp
            · omega
            · have := hm'.1 p hp; omega
      · rw [List.map_map, List.range_succ_eq_map]
        simp only [List.map_cons, List.modifyHead_cons, if_true, List.map_map]
        refine cons_congr ?_ (List.map_congr_left fun j hj => ?_)
        · have e1 : l + (x.line - l) = x.line := by omega
          simp only [Function.comp, Nat.add_zero, e1]
          rw [if_neg (by omega), List.filter_cons_of_pos (by simp)]
          simp [place]
        · have e1 : l + (x.line - l + j.succ) = x.line + j.succ := by omega
          simp only [Function.comp, e1]
          rw [if_neg (by omega), if_neg (by omega), List.filter_cons_of_neg (by simp)]
    · have he : x.line = l := by omega
      subst he
      rw [gap_same (by omega), List.append_assoc, splitOnChar_prefix (no_nl_blanks _), body,
        List.range_succ_eq_map]
      simp only [List.map_cons, List.modifyHead_cons, if_true, List.map_map]
      refine cons_congr ?_ (List.map_congr_left fun j hj => ?_)
      · rw [List.filter_cons_of_pos (by simp)]
        simp [place]
      · simp only [Function.comp]
        rw [if_neg (by omega), if_neg (by omega), List.filter_cons_of_neg (by simp)]

end Hooq
