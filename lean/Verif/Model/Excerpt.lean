import Verif.Model.Flavor

/-!
# Source excerpts

/repo/hooq-macros/src/impls/utils/source_excerpt.rs.  Strings are character lists.
-/

namespace Hooq

/-- The token stream of an expression (`expr.into_token_stream()`) with the positions
that the code reads.  `leaf`: an identifier, a punctuation character or a literal, with
its text, start line, start column and end column.  `str`: a string literal that is a
`LitStr` node of the syntax tree, with its value and its spelling; string literals in
the tokens of a macro invocation are `leaf`s, because `syn`'s `Fold` does not enter
them.  `group`: start line and column of the opening delimiter, end line and column of
the closing one.  Simplification: the syntax tree is identified with its tokens.
For /repo/hooq-macros/src/impls/utils/source_excerpt.rs:44-79, 253-310. -/
inductive PTok
  | leaf (text : List Char) (line col endCol : Nat)
  | str (value spelling : List Char) (line col endCol : Nat)
  | group (d : Delim) (ts : List PTok) (line col endLine endCol : Nat)
deriving Inhabited

/-- An expression: its tokens, and the lines where its span starts and ends.
For /repo/hooq-macros/src/impls/utils/source_excerpt.rs:44-79. -/
structure PExpr where
  toks : List PTok
  startLine : Nat
  endLine : Nat
deriving Inhabited

/-! ## Strings -/

/-- `join(sep)` on a list of strings.
For /repo/hooq-macros/src/impls/utils/source_excerpt.rs:142, 210, 280, 443. -/
def joinWith (sep : List Char) : List (List Char) → List Char
  | [] => []
  | [x] => x
  | x :: y :: l => x ++ sep ++ joinWith sep (y :: l)

/-- Remove one carriage return at the end.
For /repo/hooq-macros/src/impls/utils/source_excerpt.rs:139, 436. -/
def stripCR (l : List Char) : List Char := if l.getLast? = some '\r' then l.dropLast else l

/-- The lines of a text that was split at line feeds: the last piece is no line if it is
empty, and keeps its carriage return.
For /repo/hooq-macros/src/impls/utils/source_excerpt.rs:139, 436. -/
def linesOf : List (List Char) → List (List Char)
  | [] => []
  | [x] => if x.isEmpty then [] else [x]
  | x :: y :: l => stripCR x :: linesOf (y :: l)

/-- `str::lines`.
For /repo/hooq-macros/src/impls/utils/source_excerpt.rs:139, 436. -/
def rustLines (s : List Char) : List (List Char) := linesOf (splitOnChar '\n' s)

/-- `str::trim`; `ws` is `char::is_whitespace`.
For /repo/hooq-macros/src/impls/utils/source_excerpt.rs:140. -/
def trim (ws : Char → Bool) (s : List Char) : List Char :=
  ((s.dropWhile ws).reverse.dropWhile ws).reverse

/-! ## Truncation -/

/-- `TruncateStrFolder`, /repo/hooq-macros/src/impls/utils/source_excerpt.rs:215-219. -/
structure Folder where
  maxLen : Nat
  startLen : Nat
  endLen : Nat
deriving DecidableEq, Repr

/-- `TruncateStrFolder::default`, /repo/hooq-macros/src/impls/utils/source_excerpt.rs:221-229.
-/
def Folder.default : Folder := ⟨10, 4, 4⟩

/-- `TruncateStrFolder::new`, /repo/hooq-macros/src/impls/utils/source_excerpt.rs:232-250. -/
def Folder.new (maxLen : Nat) : Folder :=
  if maxLen < 2 then ⟨maxLen, 0, 0⟩
  else ⟨maxLen, (maxLen - 2) / 2, (maxLen - 2) - (maxLen - 2) / 2⟩

/-- One line of a literal, /repo/hooq-macros/src/impls/utils/source_excerpt.rs:264-277. -/
def Folder.line (f : Folder) (l : List Char) : List Char :=
  if l.length > f.maxLen then l.take f.startLen ++ ['.', '.'] ++ (l.reverse.take f.endLen).reverse else l

/-- The value of a literal, `fold_lit_str`,
/repo/hooq-macros/src/impls/utils/source_excerpt.rs:253-282. -/
def Folder.value (f : Folder) (v : List Char) : List Char :=
  joinWith ['\n'] ((splitOnChar '\n' v).map f.line)

mutual
/-- `fold_expr` on a token; `spell` is the spelling that `LitStr::new` gives a value.
`LitStr::new` is called for every literal, so short ones are spelled anew too.
For /repo/hooq-macros/src/impls/utils/source_excerpt.rs:253-288. -/
def Folder.tok (f : Folder) (spell : List Char → List Char) : PTok → PTok
  | .leaf t a b c => .leaf t a b c
  | .str v _ a b c => .str (f.value v) (spell (f.value v)) a b c
  | .group d ts a b c e => .group d (f.toks spell ts) a b c e
/-- `fold_expr` on tokens.
For /repo/hooq-macros/src/impls/utils/source_excerpt.rs:253-288. -/
def Folder.toks (f : Folder) (spell : List Char → List Char) : List PTok → List PTok
  | [] => []
  | t :: ts => f.tok spell t :: f.toks spell ts
end

/-- `truncate_lit_str_inner`, /repo/hooq-macros/src/impls/utils/source_excerpt.rs:285-288;
`truncate_lit_str`, /repo/hooq-macros/src/impls/utils/source_excerpt.rs:12-15. -/
def truncateLitStr (spell : List Char → List Char) (maxLen : Option Nat) (e : PExpr) : PExpr :=
  let f := match maxLen with
    | none => Folder.default
    | some n => Folder.new n
  { e with toks := f.toks spell e.toks }

/-! ## Pretty printing -/

/-- `current_line` and `current_column`.
For /repo/hooq-macros/src/impls/utils/source_excerpt.rs:290-310. -/
structure Pen where
  line : Option Nat
  col : Option Nat
deriving DecidableEq, Repr

/-- The white space before a token,
/repo/hooq-macros/src/impls/utils/source_excerpt.rs:325-337. -/
def Pen.gap (p : Pen) (line col : Nat) : List Char :=
  let side := match p.col with
    | some c => if col > c then List.replicate (col - c) ' ' else []
    | none => []
  match p.line with
  | some l => if line > l then List.replicate (line - l) '\n' ++ List.replicate (col - 1) ' ' else side
  | none => side

/-- `add_tt`, /repo/hooq-macros/src/impls/utils/source_excerpt.rs:303-343. -/
def addTok (top : Bool) (text : List Char) (line col endCol : Nat) (p : Pen) : List Char × Pen :=
  ((if top then [' ', ' ', ' ', ' '] else []) ++ p.gap line col ++ text, ⟨some line, some endCol⟩)

/-- `delim_start`, /repo/hooq-macros/src/impls/utils/source_excerpt.rs:406-413. -/
def delimStart : Delim → List Char
  | .paren => ['(']
  | .brace => ['{']
  | .bracket => ['[']
  | .none => []

/-- `delim_end`, /repo/hooq-macros/src/impls/utils/source_excerpt.rs:415-422. -/
def delimEnd : Delim → List Char
  | .paren => [')']
  | .brace => ['}']
  | .bracket => [']']
  | .none => []

mutual
/-- The body of the loop of `into_pretty_str_inner`,
/repo/hooq-macros/src/impls/utils/source_excerpt.rs:346-400. -/
def printTok (top : Bool) (p : Pen) : PTok → List Char × Pen
  | .leaf t l c e => addTok top t l c e p
  | .str _ t l c e => addTok top t l c e p
  | .group d ts l c el ec =>
    let o := addTok top (delimStart d) l c (c + 1) p
    let i := printToks false o.2 ts
    let e := addTok false (delimEnd d) el (ec - 1) ec i.2
    (o.1 ++ i.1 ++ e.1, e.2)
/-- The loop of `into_pretty_str_inner`,
/repo/hooq-macros/src/impls/utils/source_excerpt.rs:345-401. -/
def printToks (top : Bool) (p : Pen) : List PTok → List Char × Pen
  | [] => ([], p)
  | t :: ts =>
    let a := printTok top p t
    let b := printToks false a.2 ts
    (a.1 ++ b.1, b.2)
end

/-- `{index: >width$}`: right-aligned decimal number.
For /repo/hooq-macros/src/impls/utils/source_excerpt.rs:431-437. -/
def padNum (width n : Nat) : List Char :=
  List.replicate (width - (Nat.toDigits 10 n).length) ' ' ++ Nat.toDigits 10 n

/-- The loop of `add_line_prefix`, /repo/hooq-macros/src/impls/utils/source_excerpt.rs:436-440.
-/
def numberLines (width : Nat) (index : Nat) (mark : Char) : List (List Char) → List (List Char)
  | [] => []
  | l :: ls => (padNum width index ++ [mark] ++ l) :: numberLines width (index + 1) '|' ls

/-- `padding_num`, /repo/hooq-macros/src/impls/utils/source_excerpt.rs:431. -/
def padWidth (endLine : Nat) : Nat := max (Nat.toDigits 10 endLine).length 4

/-- `PrettyStrSettings`, /repo/hooq-macros/src/impls/utils/source_excerpt.rs:94-99. -/
structure PrettySettings where
  showLineNum : Bool
  topPadding : Bool
  bottomPadding : Bool
deriving DecidableEq, Repr

/-- `IntoPrettyStrRes` with its `Padding`,
/repo/hooq-macros/src/impls/utils/source_excerpt.rs:17-32. -/
structure PrettyRes where
  body : List Char
  top : List Char
  bottom : List Char
deriving DecidableEq, Repr

/-- `Padding::wrap`, /repo/hooq-macros/src/impls/utils/source_excerpt.rs:34-41. -/
def PrettyRes.wrap (r : PrettyRes) (s : List Char) : List Char := r.top ++ s ++ r.bottom

/-- `add_line_prefix`, /repo/hooq-macros/src/impls/utils/source_excerpt.rs:424-449. -/
def addLinePrefix (s : List Char) (startLine endLine : Nat) (top bottom : Bool) : PrettyRes :=
  let w := padWidth endLine
  { body := joinWith ['\n'] (numberLines w startLine '>' (rustLines s))
    top := if top then List.replicate w ' ' ++ ['|', '\n'] else []
    bottom := if bottom then '\n' :: List.replicate w ' ' ++ ['|'] else [] }

/-- `into_pretty_str`, /repo/hooq-macros/src/impls/utils/source_excerpt.rs:44-76. -/
def intoPretty (e : PExpr) (s : PrettySettings) : PrettyRes :=
  let res := (printToks true ⟨none, none⟩ e.toks).1
  if s.showLineNum then addLinePrefix res e.startLine e.endLine s.topPadding s.bottomPadding
  else { body := res
         top := if s.topPadding then ['\n'] else []
         bottom := if s.bottomPadding then ['\n'] else [] }

/-- `TruncateLitStrSetting`, /repo/hooq-macros/src/impls/utils/source_excerpt.rs:80-91; `none`
is `NoTruncation`. -/
def applyTrunc (spell : List Char → List Char) (t : Option (Option Nat)) (e : PExpr) : PExpr :=
  match t with
  | none => e
  | some n => truncateLitStr spell n e

/-- `into_one_line_pretty_str`, /repo/hooq-macros/src/impls/utils/source_excerpt.rs:125-145. -/
def oneLine (ws : Char → Bool) (spell : List Char → List Char) (t : Option (Option Nat)) (e : PExpr) :
    List Char :=
  joinWith [' '] ((rustLines (intoPretty (applyTrunc spell t e) ⟨false, false, false⟩).body).map (trim ws))

/-- `ExcerptSetting`, /repo/hooq-macros/src/impls/utils/source_excerpt.rs:101-106. -/
structure ExcerptSetting where
  maxLines : Nat
  trunc : Option (Option Nat)
  pretty : PrettySettings
deriving DecidableEq, Repr

/-- `ExcerptSetting::default`, /repo/hooq-macros/src/impls/utils/source_excerpt.rs:108-120. -/
def ExcerptSetting.default : ExcerptSetting := ⟨5, some none, ⟨true, false, true⟩⟩

/-- The choice of lines in `into_excerpted_line_pretty_str`,
/repo/hooq-macros/src/impls/utils/source_excerpt.rs:160-210, on a body; `max` is at least 1. -/
def pickLines (max : Nat) (body : List Char) : List Char :=
  let ls := rustLines body
  if max = 1 then ls.getLast?.getD []
  else if ls.length ≤ 2 then body
  else
    match ls with
    | [] => []
    | first :: rest =>
      let tail := (rest.reverse.take (max - 1)).reverse
      joinWith ['\n'] ([first] ++ (if ls.length > max then [['.', '.', '.']] else []) ++ tail)

/-- `into_excerpted_line_pretty_str`,
/repo/hooq-macros/src/impls/utils/source_excerpt.rs:147-213; `none` is the error. -/
def excerpted (spell : List Char → List Char) (s : ExcerptSetting) (e : PExpr) : Option (List Char) :=
  if s.maxLines < 1 then none
  else
    let r := intoPretty (applyTrunc spell s.trunc e) s.pretty
    some (r.wrap (pickLines s.maxLines r.body))

end Hooq
