import Verif.Model.ExcerptArgs
import Verif.Model.ErrPlace

/-!
# The excerpt macros as a whole, and where their errors are shown

/repo/hooq-macros/src/lib.rs:31-192 and
/repo/hooq-macros/src/impls/utils/source_excerpt_macros.rs.  As in `ErrPlace`, only the beginning of
the marked text is modelled; `ErrPlace.root` is here the whole call of the macro
(`Span::call_site()`).
-/

namespace Hooq

/-- What `syn` says about expressions: `OptReader`, and where an error is if the rest of the input is
not exactly one expression.  A parameter, as the expression parser is not modelled; see `input.parse()`,
/repo/hooq-macros/src/impls/utils/source_excerpt_macros.rs:159. -/
structure OptSpans (E : Type) extends OptReader E where
  fault : List TT → ErrPlace

/-- The errors of the excerpt macros: `@excerpt_line` without value
(/repo/hooq-macros/src/impls/utils/source_excerpt_macros.rs:80-83), a value that is not allowed (lines 87-93, 102-108
and 131-142), an unknown option (lines 148-151), no expression (line 159), and the limit 0
(/repo/hooq-macros/src/impls/utils/source_excerpt.rs:155-160). -/
inductive OptErr
  | missing
  | value
  | unknown
  | expr
  | limit
deriving DecidableEq, Repr

/-- The text behind `@name =`: `val` in
/repo/hooq-macros/src/impls/utils/source_excerpt_macros.rs:53-54. -/
def optValue (ts : List TT) : List TT :=
  match enteredAll ts with
  | some (.punct '@' _ :: r) =>
    match enteredAll r with
    | some (.ident _ _ :: r) =>
      match enteredAll r with
      | some (.punct '=' _ :: r) => r
      | _ => []
    | _ => []
  | _ => []

/-- The error about an option that begins with `ts`, where `applyOpt` fails,
/repo/hooq-macros/src/impls/utils/source_excerpt_macros.rs:77-152.  A name is a `String` there, not an
identifier: its tokens have the span of the call.  A literal has its own span, a negative one that of the
minus sign. -/
def optFault (name : String) (val : Option OptLit) (ts : List TT) : OptErr × ErrPlace :=
  if name = "excerpt_line" then
    match val with
    | none => (.missing, .root)
    | some _ => (.value, leftPlace (optValue ts))
  else if name = "truncate_str" then (.value, leftPlace (optValue ts))
  else if name = "padding" then (.value, leftPlace (optValue ts))
  else (.unknown, .root)

/-- `optLoop`, /repo/hooq-macros/src/impls/utils/source_excerpt_macros.rs:64-157, with the places of
errors. -/
def optLoopAt {E : Type} (R : OptSpans E) : Nat → OptArgs → List TT → Except (OptErr × ErrPlace) (OptArgs × List TT)
  | 0, a, ts => .ok (a, ts)
  | fuel + 1, a, ts =>
    match enteredAll ts with
    | some (.punct ';' _ :: r) => .ok (a, r)
    | _ =>
      match parseOpt R.toOptReader ts with
      | none => .ok (a, ts)
      | some ((name, val), r) =>
        match applyOpt a name val with
        | none => .error (optFault name val ts)
        | some a => optLoopAt R fuel a (skipComma r)

/-- `syn::parse2::<ExcerptMacroArgs>`,
/repo/hooq-macros/src/impls/utils/source_excerpt_macros.rs:28-172, with the places of errors. -/
def argsPlaced {E : Type} (R : OptSpans E) (ts : List TT) : Except (OptErr × ErrPlace) (OptArgs × E) :=
  match optLoopAt R (openedAll ts).length {} ts with
  | .error e => .error e
  | .ok (a, r) =>
    match R.expr r with
    | some e => .ok (a, e)
    | none => .error (.expr, R.fault r)

/-- The macros `truncate_lit_str!`, `pretty_stringify!`, `one_line_stringify!` and
`excerpted_pretty_stringify!`, /repo/hooq-macros/src/lib.rs:31-192. -/
inductive Helper
  | truncate
  | pretty
  | oneLine
  | excerpt
deriving DecidableEq, Repr

/-- What a macro gives: an expression, a string literal, or `compile_error!`.
For /repo/hooq-macros/src/lib.rs:31-192. -/
inductive HelperOut
  | expr (e : PExpr)
  | text (s : List Char)
  | compileError (e : OptErr) (p : ErrPlace)

/-- The macros, /repo/hooq-macros/src/lib.rs:31-192, with
/repo/hooq-macros/src/impls/utils/source_excerpt_macros.rs:174-277. -/
def helperMacro (ws : Char → Bool) (spell : List Char → List Char) (R : OptSpans PExpr) (k : Helper) (ts : List TT) :
    HelperOut :=
  match argsPlaced R ts with
  | .error (e, p) => .compileError e p
  | .ok (a, x) =>
    match k with
    | .truncate => .expr (truncateLitStr spell (a.trunc.getD none) x)
    | .pretty =>
      let r := intoPretty x (a.pad ⟨false, false, false⟩)
      .text (r.wrap r.body)
    | .oneLine => .text (oneLine ws spell a.trunc x)
    | .excerpt =>
      match excerpted spell a.excerpt x with
      | some s => .text s
      | none => .compileError .limit .root

end Hooq
