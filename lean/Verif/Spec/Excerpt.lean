import Verif.Model.Excerpt

/-!
# What excerpts should look like
-/

namespace Hooq

/-- `ls` are the lines of `v`, in the sense of splitting at every line feed. -/
def IsLines (v : List Char) (ls : List (List Char)) : Prop :=
  ls ≠ [] ∧ (∀ l ∈ ls, '\n' ∉ l) ∧ v = joinWith ['\n'] ls

/-- The truncation law for one text and a limit: a short text stays; of a long one a
beginning and an end stay, with `..` between them, of exactly the limit in total. -/
def TruncLaw (n : Nat) (l l' : List Char) : Prop :=
  if l.length ≤ n then l' = l
  else ∃ a mid b, l = a ++ mid ++ b ∧ l' = a ++ ['.', '.'] ++ b ∧ l'.length = n

/-- A printed token: its text, the value if it is a string literal of the syntax tree,
and its place in the source. -/
structure Piece where
  text : List Char
  value : Option (List Char)
  line : Nat
  col : Nat
  endCol : Nat
deriving DecidableEq, Repr

/-- How a group begins. -/
def Delim.openMark : Delim → List Char
  | .paren => "(".toList
  | .bracket => "[".toList
  | .brace => "{".toList
  | .none => []

/-- How a group ends. -/
def Delim.closeMark : Delim → List Char
  | .paren => ")".toList
  | .bracket => "]".toList
  | .brace => "}".toList
  | .none => []

mutual
/-- The tokens of a tree from left to right, delimiters included. -/
def PTok.pieces : PTok → List Piece
  | .leaf t l c e => [⟨t, none, l, c, e⟩]
  | .str v t l c e => [⟨t, some v, l, c, e⟩]
  | .group d ts l c el ec =>
    ⟨d.openMark, none, l, c, c + 1⟩ :: (piecesOf ts ++ [⟨d.closeMark, none, el, ec - 1, ec⟩])
/-- The tokens of a list of trees. -/
def piecesOf : List PTok → List Piece
  | [] => []
  | t :: ts => t.pieces ++ piecesOf ts
end

/-- The expression with its string literals truncated, if asked for. -/
def shortened (spell : List Char → List Char) (t : Option (Option Nat)) (e : PExpr) : PExpr :=
  match t with
  | none => e
  | some limit => truncateLitStr spell limit e

/-- The lines never go back. -/
def Monotone (ps : List Piece) : Prop := ps.Pairwise fun a b => a.line ≤ b.line

/-- Write tokens of one line at their columns; `cur` is the column reached. -/
def place (cur : Nat) : List Piece → List Char
  | [] => []
  | p :: ps => List.replicate (p.col - cur) ' ' ++ p.text ++ place p.endCol ps

/-- The first line of the first token. -/
def firstLine : List Piece → Nat
  | [] => 0
  | p :: _ => p.line

/-- The line of the last token. -/
def lastLine (ps : List Piece) : Nat := (ps.getLast?.map (·.line)).getD 0

/-- What should stand on source line `L`: its tokens at their columns.  The first line
does not start at its column but after four blanks. -/
def lineAt (ps : List Piece) (L : Nat) : List Char :=
  match ps with
  | [] => []
  | p :: _ =>
    if L = p.line then [' ', ' ', ' ', ' '] ++ place p.col (ps.filter fun q => q.line = L)
    else place 1 (ps.filter fun q => q.line = L)

/-- All lines, from that of the first token to that of the last. -/
def allLines (ps : List Piece) : List (List Char) :=
  (List.range (lastLine ps - firstLine ps + 1)).map fun j => lineAt ps (firstLine ps + j)

/-- A decimal number, right-aligned in `w` columns. -/
def label (w n : Nat) : List Char :=
  List.replicate (w - (toString n).toList.length) ' ' ++ (toString n).toList

/-- All lines with their numbers in front, right-aligned in `w` columns. -/
def labelled (w : Nat) (ps : List Piece) : List (List Char) :=
  (List.range (lastLine ps - firstLine ps + 1)).map fun j =>
    label w (firstLine ps + j) ++ [if j = 0 then '>' else '|'] ++ lineAt ps (firstLine ps + j)

/-- No token contains a line break. -/
def Flat (ps : List Piece) : Prop := ∀ p ∈ ps, '\n' ∉ p.text ∧ '\r' ∉ p.text

/-- Width of the line numbers: room for the last one, but at least 4. -/
def gutter (endLine : Nat) : Nat := if endLine < 10000 then 4 else (Nat.toDigits 10 endLine).length

/-- What stands above the text: nothing, an empty line, or with line numbers a line that only
has the bar. -/
def padAbove (s : PrettySettings) (endLine : Nat) : List Char :=
  match s.topPadding, s.showLineNum with
  | false, _ => []
  | true, false => ['\n']
  | true, true => List.replicate (gutter endLine) ' ' ++ "|\n".toList

/-- What stands below the text. -/
def padBelow (s : PrettySettings) (endLine : Nat) : List Char :=
  match s.bottomPadding, s.showLineNum with
  | false, _ => []
  | true, false => ['\n']
  | true, true => "\n".toList ++ List.replicate (gutter endLine) ' ' ++ ['|']

end Hooq
