import Verif.Spec.RunCode
import Verif.Model.Spliced

/-!
# What a hook does when it runs

The meaning of the part of Rust that the methods of the built-in flavors are made of, read
from the tokens: a method call with a closure, `let`, the macros `eprintln!`, `format!`,
`log!` and `event!` with format strings, and the helper macros of hooq.  What an error
looks like, what the excerpt of the source is and what the libraries make of a text is a
parameter.  `$hooq_meta` is read as the tokens it stands for.
-/

namespace Hooq

/-- A `Result`. -/
inductive Res (Ty : Nat → Type)
  | ok (v : Dyn Ty)
  | err (e : Dyn Ty)

/-- What is recorded in a field of an event of `tracing`. -/
inductive FieldText (Ty : Nat → Type)
  | value (v : RVal Ty)
  /-- `%x` -/
  | shown (s : String)

/-- What the outside sees. -/
inductive Report (Ty : Nat → Type)
  /-- written to the standard error stream -/
  | printed (s : String)
  /-- a record of the crate `log` -/
  | logged (level : Dyn Ty) (s : String)
  /-- an event of the crate `tracing` -/
  | traced (level : Dyn Ty) (fields : List (String × FieldText Ty))

/-- What running a hook depends on: the run of the user's code, how errors are shown, what
the helper macros make of the source of the target, its text, how `anyhow` and `eyre` put
a message in front of an error, and the user's method `hook`. -/
structure World (Ty : Nat → Type) extends Machine Ty where
  display : Dyn Ty → String
  debug : Dyn Ty → String
  excerpt : String → Option String
  source : String
  wrap : String → String → Dyn Ty → Dyn Ty
  hook : Res Ty → String → HooqMeta Ty → Res Ty × List (Report Ty)

/-! ## Format strings -/

/-- A piece of a format string: a character, `{name}` or `{name:?}`. -/
inductive FmtPiece
  | char (c : Char)
  | arg (name : List Char) (debug : Bool)
deriving DecidableEq

/-- The pieces of a format string; `name` is what was read behind a `{`, backwards. -/
def piecesFrom : (name : Option (List Char)) → List Char → Option (List FmtPiece)
  | none, [] => some []
  | none, '{' :: '{' :: r => (piecesFrom none r).map (.char '{' :: ·)
  | none, '}' :: '}' :: r => (piecesFrom none r).map (.char '}' :: ·)
  | none, '{' :: r => piecesFrom (some []) r
  | none, '}' :: _ => none
  | none, c :: r => (piecesFrom none r).map (.char c :: ·)
  | some _, [] => none
  | some n, '}' :: r => (piecesFrom none r).map (.arg n.reverse false :: ·)
  | some n, ':' :: '?' :: '}' :: r => (piecesFrom none r).map (.arg n.reverse true :: ·)
  | some n, c :: r => if c.isAlphanum || c == '_' then piecesFrom (some (c :: n)) r else none

/-- How a value is shown. -/
def World.shown {Ty : Nat → Type} (W : World Ty) : (debug : Bool) → RVal Ty → Option String
  | false, .slice s => some s
  | false, .owned s => some s
  | _, .num n => some (toString n)
  | false, .any d => some (W.display d)
  | true, .any d => some (W.debug d)
  | _, _ => none

/-- The text of the pieces. -/
def World.fill {Ty : Nat → Type} (W : World Ty) (L : Locals Ty) : List FmtPiece → Option String
  | [] => some ""
  | .char c :: ps => (W.fill L ps).map (String.singleton c ++ ·)
  | .arg n d :: ps =>
    match (L (String.ofList n)).bind (W.shown d), W.fill L ps with
    | some a, some b => some (a ++ b)
    | _, _ => none

/-- The text of a format string. -/
def World.format {Ty : Nat → Type} (W : World Ty) (L : Locals Ty) (f : String) : Option String :=
  (piecesFrom none f.toList).bind (W.fill L)

/-! ## Running -/

/-- The value of an expression; `hp` is the path of the helper macros. -/
inductive Code {Ty : Nat → Type} (W : World Ty) (hp : List TT) (L : Locals Ty) : List TT → RVal Ty → Prop
  | pure {ts : List TT} {v : RVal Ty} : Computes W.toMachine L ts v → Code W hp L ts v
  | record {m : MetaRec} {sp : Span} {v : RVal Ty} :
      Computes W.toMachine L (metaTokens W.source m) v → Code W hp L [.metaHole m sp] v
  /-- `HELPERS::mac!($source)` -/
  | excerpt {mac s : String} {s1 s2 s3 s4 s5 s6 : Span} : W.excerpt mac = some s →
      Code W hp L (hp ++ [.punct ':' s1, .punct ':' s2, .ident mac s3, .punct '!' s4,
        .group .paren [.sourceHole s5] s6]) (.slice s)
  /-- `format!("..")` -/
  | format {f s : String} {s1 s2 s3 s4 : Span} : W.format L f = some s →
      Code W hp L [.ident "format" s1, .punct '!' s2, .group .paren [.lit (.str f) s3] s4] (.owned s)

/-- The fields of an event: `name,` or `name = %var,`. -/
inductive Recorded {Ty : Nat → Type} (W : World Ty) (L : Locals Ty) :
    List TT → List (String × FieldText Ty) → Prop
  | nil : Recorded W L [] []
  | value {x : String} {s1 s2 : Span} {v : RVal Ty} {us : List TT} {fs : List (String × FieldText Ty)} :
      L x = some v → Recorded W L us fs → Recorded W L (.ident x s1 :: .punct ',' s2 :: us) ((x, .value v) :: fs)
  | shown {x y s : String} {s1 s2 s3 s4 s5 : Span} {v : RVal Ty} {us : List TT}
      {fs : List (String × FieldText Ty)} :
      L y = some v → W.shown false v = some s → Recorded W L us fs →
      Recorded W L (.ident x s1 :: .punct '=' s2 :: .punct '%' s3 :: .ident y s4 :: .punct ',' s5 :: us)
        ((x, .shown s) :: fs)

/-- What a block comes to: a value, or an event and no value. -/
inductive Effect (Ty : Nat → Type)
  | value (v : RVal Ty)
  | event (e : Report Ty)

/-- What the inside of a block does. -/
inductive Runs {Ty : Nat → Type} (W : World Ty) (hp : List TT) : Locals Ty → List TT → Effect Ty → Prop
  | value {L : Locals Ty} {ts : List TT} {v : RVal Ty} : Code W hp L ts v → Runs W hp L ts (.value v)
  /-- `let x = e;` -/
  | bind {L : Locals Ty} {x : String} {ts us : List TT} {w : RVal Ty} {eff : Effect Ty} {s1 s2 s3 s4 : Span} :
      Code W hp L ts w → Runs W hp (L.set x w) us eff →
      Runs W hp L (.ident "let" s1 :: .ident x s2 :: .punct '=' s3 :: (ts ++ .punct ';' s4 :: us)) eff
  /-- `::std::eprintln!("..");` -/
  | print {L : Locals Ty} {p : List TT} {f s : String} {s1 s2 s3 s4 : Span} :
      AbsPath p ["std", "eprintln"] → W.format L f = some s →
      Runs W hp L (p ++ [.punct '!' s1, .group .paren [.lit (.str f) s2] s3, .punct ';' s4])
        (.event (.printed (s ++ "\n")))
  /-- `::log::log!(level, "..");` -/
  | log {L : Locals Ty} {p lv : List TT} {v : RVal Ty} {f s : String} {s1 s2 s3 s4 s5 : Span} :
      AbsPath p ["log", "log"] → Code W hp L lv v → W.format L f = some s →
      Runs W hp L (p ++ [.punct '!' s1, .group .paren (lv ++ [.punct ',' s2, .lit (.str f) s3]) s4, .punct ';' s5])
        (.event (.logged (W.asAny v) s))
  /-- `::tracing::event!(level, field, ..);` -/
  | trace {L : Locals Ty} {p lv us : List TT} {v : RVal Ty} {fs : List (String × FieldText Ty)}
      {s1 s2 s3 s4 : Span} :
      AbsPath p ["tracing", "event"] → Code W hp L lv v → Recorded W L us fs →
      Runs W hp L (p ++ [.punct '!' s1, .group .paren (lv ++ .punct ',' s2 :: us) s3, .punct ';' s4])
        (.event (.traced (W.asAny v) fs))

/-- What a hook does to a `Result`: the new one, and the events.  A hook is a method call,
or the target alone (`$expr`).
`inspect_err` (standard library) runs the closure on an error and keeps it; `with_context`
(`anyhow`) and `wrap_err_with` (`eyre`) put the text that the closure makes in front of an
error; all three keep an `Ok`. -/
inductive Does {Ty : Nat → Type} (W : World Ty) (hp : List TT) (L : Locals Ty) :
    List TT → Res Ty → Res Ty → List (Report Ty) → Prop
  | expr {r : Res Ty} {s1 : Span} : Does W hp L [.exprHole s1] r r []
  | lookOk {f x : String} {body : List TT} {v : Dyn Ty} {s1 s2 s3 s4 s5 s6 s7 : Span} : f = "inspect_err" →
      Does W hp L [.punct '.' s1, .ident f s2,
        .group .paren [.punct '|' s3, .ident x s4, .punct '|' s5, .group .brace body s6] s7] (.ok v) (.ok v) []
  | lookErr {f x : String} {body : List TT} {e : Dyn Ty} {ev : Report Ty} {s1 s2 s3 s4 s5 s6 s7 : Span} :
      f = "inspect_err" → Runs W hp (L.set x (.any e)) body (.event ev) →
      Does W hp L [.punct '.' s1, .ident f s2,
        .group .paren [.punct '|' s3, .ident x s4, .punct '|' s5, .group .brace body s6] s7] (.err e) (.err e) [ev]
  | wrapOk {f : String} {body : List TT} {v : Dyn Ty} {s1 s2 s3 s4 s5 s6 : Span} :
      f = "with_context" ∨ f = "wrap_err_with" →
      Does W hp L [.punct '.' s1, .ident f s2,
        .group .paren [.punct '|' s3, .punct '|' s4, .group .brace body s5] s6] (.ok v) (.ok v) []
  | wrapErr {f s : String} {body : List TT} {e : Dyn Ty} {s1 s2 s3 s4 s5 s6 : Span} :
      f = "with_context" ∨ f = "wrap_err_with" → Runs W hp L body (.value (.owned s)) →
      Does W hp L [.punct '.' s1, .ident f s2,
        .group .paren [.punct '|' s3, .punct '|' s4, .group .brace body s5] s6] (.err e) (.err (W.wrap f s e)) []
  | hook {f : String} {body : List TT} {r : Res Ty} {src : String} {m : HooqMeta Ty} {s1 s2 s3 s4 s5 s6 : Span} :
      f = "hook" → Runs W hp L body (.value (.record src m)) →
      Does W hp L [.punct '.' s1, .ident f s2,
        .group .paren [.punct '|' s3, .punct '|' s4, .group .brace body s5] s6] r (W.hook r src m).1 (W.hook r src m).2

/-! ## What the reference promises -/

/-- The place of a target. -/
structure Where where
  path : String
  line : Nat
  col : Nat

/-- `path:line:col`. -/
def Where.text (a : Where) : String := a.path ++ ":" ++ toString a.line ++ ":" ++ toString a.col

/-- The variables that the level of `log` and `tracing` is evaluated with (C81). -/
def World.levelScope {Ty : Nat → Type} (W : World Ty) (sc : Scope Ty) (e : Dyn Ty) (a : Where) (expr : String) : Scope Ty :=
  Locals.scope W.toMachine ((((((Locals.ofScope sc).set "e" (.any e)).set "path" (.slice a.path)).set "line" (.num a.line)).set
    "col" (.num a.col)).set "expr" (.slice expr))

/-- What a built-in flavor makes of an error: the new error, and the events; `level` is the
level in force. -/
def World.reports {Ty : Nat → Type} (W : World Ty) (sc : Scope Ty) (flavor : String) (level : Option Value) (a : Where)
    (pretty line : String) (e : Dyn Ty) : Dyn Ty × List (Report Ty) :=
  if flavor = "empty" then (e, [])
  else if flavor = "default" then
    (e, [.printed ("[" ++ a.text ++ "] " ++ W.debug e ++ "\n" ++ pretty ++ "\n")])
  else if flavor = "log" then
    (e, (level.map fun v => .logged (W.eval (W.levelScope sc e a pretty) v)
      ("(" ++ a.text ++ ") " ++ W.display e ++ "\n" ++ pretty)).toList)
  else if flavor = "tracing" then
    (e, (level.map fun v => .traced (W.eval (W.levelScope sc e a line) v)
      [("path", .value (.slice a.path)), ("line", .value (.num a.line)), ("col", .value (.num a.col)),
       ("error", .shown (W.display e)), ("expr", .value (.slice line))]).toList)
  else if flavor = "anyhow" then (W.wrap "with_context" ("[" ++ a.text ++ "]\n" ++ pretty) e, [])
  else (W.wrap "wrap_err_with" ("[" ++ a.text ++ "]\n" ++ pretty) e, [])

/-- What a built-in flavor makes of a result: an `Ok` stays and nothing is reported. -/
def World.outcome {Ty : Nat → Type} (W : World Ty) (sc : Scope Ty) (flavor : String) (level : Option Value) (a : Where)
    (pretty line : String) : Res Ty → Res Ty × List (Report Ty)
  | .ok v => (.ok v, [])
  | .err e => (.err (W.reports sc flavor level a pretty line e).1, (W.reports sc flavor level a pretty line e).2)

end Hooq
