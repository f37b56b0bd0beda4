import Verif.Model.Excerpt
import Verif.Model.Metas

/-!
# Arguments of the excerpt macros

`/repo/hooq-macros/src/impls/utils/source_excerpt_macros.rs`.  The input of a macro is a
list of tokens; each token is looked for behind the beginnings of groups without delimiters
(`enteredAll`).  Reading an expression is done by `syn`, which is not modelled: it
is a parameter `expr`, which gets the rest of the input and succeeds if that is exactly
one expression (`syn::parse2` rejects what is left over).
-/

namespace Hooq

/-- A literal (`syn::Lit`) as far as the options look at it.  `int v` is an integer
literal, with `v` the result of `base10_parse::<usize>`.
For /repo/hooq-macros/src/impls/utils/source_excerpt_macros.rs:38, 86, 100, 118. -/
inductive OptLit where
  | int (v : Option Nat)
  | str (s : String)
  | other
deriving DecidableEq, Repr

/-- What `syn` reads: the meaning of a literal, whether it is a number, and expressions.
For /repo/hooq-macros/src/impls/utils/source_excerpt_macros.rs:29-120. -/
structure OptReader (E : Type) where
  lit : Lit → OptLit
  number : Lit → Bool
  expr : List TT → Option E

/-- `enum Padding`, /repo/hooq-macros/src/impls/utils/source_excerpt_macros.rs:12-16. -/
inductive OptPad where
  | top | bottom | both
deriving DecidableEq, Repr

/-- `ExcerptMacroArgs`, /repo/hooq-macros/src/impls/utils/source_excerpt_macros.rs:20-26,
without the expression. -/
structure OptArgs where
  maxLines : Option Nat := none
  trunc : Option (Option Nat) := none
  lineNum : Bool := false
  padding : Option OptPad := none
deriving DecidableEq, Repr

/-- `syn::Lit::parse` (library): a literal, `true` or `false`, or a negative number, which
is never a `usize`.
For /repo/hooq-macros/src/impls/utils/source_excerpt_macros.rs:54. -/
def litOf {E : Type} (R : OptReader E) (ts : List TT) : Option (OptLit × List TT) :=
  match enteredAll ts with
  | some (.lit l _ :: r) => some (R.lit l, r)
  | some (.ident s _ :: r) => if s = "true" ∨ s = "false" then some (.other, r) else none
  | some (.punct '-' _ :: r) =>
    match enteredAll r with
    | some (.lit l _ :: r') =>
      if R.number l then
        match R.lit l with
        | .int _ => some (.int none, r')
        | _ => some (.other, r')
      else none
    | _ => none
  | _ => none

/-- `input.peek(Token![c])`, /repo/hooq-macros/src/impls/utils/source_excerpt_macros.rs:45, 65 and 154. -/
def peekPunct (c : Char) (ts : List TT) : Bool :=
  match enteredAll ts with
  | some (.punct c' _ :: _) => c == c'
  | _ => false

/-- `Opt::parse`, /repo/hooq-macros/src/impls/utils/source_excerpt_macros.rs:42-62.  `none` is
an error. -/
def parseOpt {E : Type} (R : OptReader E) (ts : List TT) : Option ((String × Option OptLit) × List TT) :=
  match enteredAll ts with
  | some (.punct '@' _ :: r) =>
    match enteredAll r with
    | some (.ident name _ :: r) =>
      if keywords.contains name then none
      else if peekPunct ',' r || peekPunct ';' r then some ((name, none), r)
      else
        match enteredAll r with
        | some (.punct '=' _ :: r) => (litOf R r).map fun p => ((name, some p.1), p.2)
        | _ => none
    | _ => none
  | _ => none

/-- The match on the name of an option,
/repo/hooq-macros/src/impls/utils/source_excerpt_macros.rs:77-152. -/
def applyOpt (a : OptArgs) (name : String) (val : Option OptLit) : Option OptArgs :=
  if name = "excerpt_line" then
    match val with
    | some (.int (some n)) => some { a with maxLines := some n }
    | _ => none
  else if name = "truncate_str" then
    match val with
    | none => some { a with trunc := some none }
    | some (.int (some n)) => some { a with trunc := some (some n) }
    | some _ => none
  else if name = "show_line_num" then some { a with lineNum := true }
  else if name = "padding" then
    match val with
    | none => some { a with padding := some .both }
    | some (.str s) =>
      if s = "top" then some { a with padding := some .top }
      else if s = "bottom" then some { a with padding := some .bottom }
      else if s = "both" then some { a with padding := some .both }
      else none
    | some _ => none
  else none

/-- `if input.peek(Token![,]) { .. }`,
/repo/hooq-macros/src/impls/utils/source_excerpt_macros.rs:154-156. -/
def skipComma (ts : List TT) : List TT :=
  match enteredAll ts with
  | some (.punct ',' _ :: r) => r
  | _ => ts

/-- The loop over options, /repo/hooq-macros/src/impls/utils/source_excerpt_macros.rs:64-157.
Each round reads at least two tokens, so that the number of tokens is enough fuel.  The result
is what is left for the expression; at the end of the input `parseOpt` fails, too. -/
def optLoop {E : Type} (R : OptReader E) : Nat → OptArgs → List TT → Option (OptArgs × List TT)
  | 0, a, ts => some (a, ts)
  | fuel + 1, a, ts =>
    match enteredAll ts with
    | some (.punct ';' _ :: r) => some (a, r)
    | _ =>
      match parseOpt R ts with
      | none => some (a, ts)
      | some ((name, val), r) =>
        match applyOpt a name val with
        | none => none
        | some a => optLoop R fuel a (skipComma r)

/-- `ExcerptMacroArgs::parse`,
/repo/hooq-macros/src/impls/utils/source_excerpt_macros.rs:28-172, on a whole input
(`syn::parse2`). -/
def parseArgs {E : Type} (R : OptReader E) (ts : List TT) : Option (OptArgs × E) :=
  match optLoop R (openedAll ts).length {} ts with
  | none => none
  | some (a, r) => (R.expr r).map fun e => (a, e)

/-- `truncate_lit_str`, /repo/hooq-macros/src/impls/utils/source_excerpt_macros.rs:174-182. -/
def truncateMacro (spell : List Char → List Char) (R : OptReader PExpr) (ts : List TT) :
    Option PExpr :=
  (parseArgs R ts).map fun p => truncateLitStr spell (p.1.trunc.getD none) p.2

/-- The settings in `pretty_stringify`,
/repo/hooq-macros/src/impls/utils/source_excerpt_macros.rs:192-214, and in
`excerpted_pretty_stringify`,
/repo/hooq-macros/src/impls/utils/source_excerpt_macros.rs:257-274. -/
def OptArgs.pad (a : OptArgs) (s : PrettySettings) : PrettySettings :=
  let s := if a.lineNum then { s with showLineNum := true } else s
  match a.padding with
  | some .top => { s with topPadding := true }
  | some .bottom => { s with bottomPadding := true }
  | some .both => { s with topPadding := true, bottomPadding := true }
  | none => s

/-- `pretty_stringify`, /repo/hooq-macros/src/impls/utils/source_excerpt_macros.rs:184-219,
with `IntoPrettyStrRes::to_string`, /repo/hooq-macros/src/impls/utils/source_excerpt.rs:17-32.
-/
def prettyMacro (R : OptReader PExpr) (ts : List TT) : Option (List Char) :=
  (parseArgs R ts).map fun p =>
    let r := intoPretty p.2 (p.1.pad ⟨false, false, false⟩)
    r.wrap r.body

/-- `one_line_stringify`, /repo/hooq-macros/src/impls/utils/source_excerpt_macros.rs:221-236.
-/
def oneLineMacro (ws : Char → Bool) (spell : List Char → List Char) (R : OptReader PExpr)
    (ts : List TT) : Option (List Char) :=
  (parseArgs R ts).map fun p => oneLine ws spell p.1.trunc p.2

/-- The settings of `excerpted_pretty_stringify`,
/repo/hooq-macros/src/impls/utils/source_excerpt_macros.rs:247-274. -/
def OptArgs.excerpt (a : OptArgs) : ExcerptSetting :=
  let s := ExcerptSetting.default
  { maxLines := a.maxLines.getD s.maxLines
    trunc := match a.trunc with
      | some v => some v
      | none => s.trunc
    pretty := a.pad s.pretty }

/-- `excerpted_pretty_stringify`,
/repo/hooq-macros/src/impls/utils/source_excerpt_macros.rs:238-277. -/
def excerptMacro (spell : List Char → List Char) (R : OptReader PExpr) (ts : List TT) :
    Option (List Char) :=
  match parseArgs R ts with
  | none => none
  | some (a, e) => excerpted spell a.excerpt e

end Hooq
