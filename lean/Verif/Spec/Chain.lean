import Verif.Spec.Errors
import Verif.Spec.Metas
import Verif.Spec.Root

/-!
# Methods that are chains of calls

A part of Rust's grammar (The Rust Reference, "Expressions" and "Statements"): what may be
written behind an expression so that the two together are an expression again.  One grammar
serves for method texts, in which meta variables stand for expressions, and for what they
expand to.  As elsewhere, whether two punctuation marks are adjacent is left out.
-/

namespace Hooq

/-- A name that a variable, a field or a method can have. -/
def MemberName (x : String) : Prop := PathWord x ∧ x ∉ ["self", "Self", "super", "crate"]

/-- A path without generic arguments. -/
inductive PathForm : List TT → Prop where
  | name {x : String} (s : Span) : PathWord x → PathForm [.ident x s]
  | absolute {x : String} (s1 s2 s3 : Span) : PathWord x →
      PathForm [.punct ':' s1, .punct ':' s2, .ident x s3]
  | more {x : String} {p : List TT} (s1 s2 s3 : Span) : PathForm p → PathWord x →
      PathForm (p ++ [.punct ':' s1, .punct ':' s2, .ident x s3])

/-- What else is admitted: `var` as an expression, `stmt` at the end of a block, `more` after
a dot, `mac` between the delimiters of a macro call. -/
structure Pieces where
  var : List TT → Prop
  stmt : List TT → Prop
  more : List TT → Prop
  mac : List TT → Prop

/-- Expressions, expressions of the highest precedence, what may follow these (at least
one of `.f`, `.m(..)`, `.await`, `(..)`, `[..]`, `?`), arguments, bodies of blocks. -/
inductive Cat where
  | expr | post | trail | args | stmts

/-- The tokens form something of the category. -/
inductive Form (P : Pieces) : Cat → List TT → Prop where
  | piece {ts : List TT} : P.var ts → Form P .expr ts
  | high {ts : List TT} : Form P .post ts → Form P .expr ts
  | closure0 {e : List TT} (s1 s2 : Span) : Form P .expr e →
      Form P .expr (.punct '|' s1 :: .punct '|' s2 :: e)
  | closure1 {x : String} {e : List TT} (s1 s2 s3 : Span) : MemberName x → Form P .expr e →
      Form P .expr (.punct '|' s1 :: .ident x s2 :: .punct '|' s3 :: e)
  | block {b : List TT} (s : Span) : Form P .stmts b → Form P .expr [.group .brace b s]
  | lit {l : Lit} (s : Span) : Form P .post [.lit l s]
  | path {p : List TT} : PathForm p → Form P .post p
  | mac {p ts : List TT} {d : Delim} (s1 s2 : Span) : PathForm p → d = .paren ∨ d = .bracket → P.mac ts →
      Form P .post (p ++ [.punct '!' s1, .group d ts s2])
  | paren {e : List TT} (s : Span) : Form P .expr e → Form P .post [.group .paren e s]
  | apply {p t : List TT} : Form P .post p → Form P .trail t → Form P .post (p ++ t)
  | field {x : String} (s1 s2 : Span) : MemberName x → Form P .trail [.punct '.' s1, .ident x s2]
  | await (s1 s2 : Span) : Form P .trail [.punct '.' s1, .ident "await" s2]
  | method {x : String} {a : List TT} (s1 s2 s3 : Span) : MemberName x → Form P .args a →
      Form P .trail [.punct '.' s1, .ident x s2, .group .paren a s3]
  | call {a : List TT} (s : Span) : Form P .args a → Form P .trail [.group .paren a s]
  | index {e : List TT} (s : Span) : Form P .expr e → Form P .trail [.group .bracket e s]
  | question (s : Span) : Form P .trail [.punct '?' s]
  | more {ts : List TT} (s : Span) : P.more ts → Form P .trail (.punct '.' s :: ts)
  | join {t u : List TT} : Form P .trail t → Form P .trail u → Form P .trail (t ++ u)
  | noArgs : Form P .args []
  | oneArg {e : List TT} : Form P .expr e → Form P .args e
  | manyArgs {e a : List TT} (s : Span) : Form P .expr e → Form P .args a →
      Form P .args (e ++ .punct ',' s :: a)
  | noStmts : Form P .stmts []
  | letStmt {x : String} {e r : List TT} (s1 s2 s3 s4 : Span) : MemberName x → Form P .expr e → Form P .stmts r →
      Form P .stmts (.ident "let" s1 :: .ident x s2 :: .punct '=' s3 :: (e ++ .punct ';' s4 :: r))
  | semi {e r : List TT} (s : Span) : Form P .post e → Form P .stmts r → Form P .stmts (e ++ .punct ';' s :: r)
  | last {e : List TT} : Form P .post e → Form P .stmts e
  | lastPiece {ts : List TT} : P.stmt ts → Form P .stmts ts

/-- In the output: spliced expressions, which as the beginning of a statement are admitted only
if they are a call or a struct (`$bindings`, `$hooq_meta`). -/
def emitted : Pieces where
  var ts := ∃ t, ts = [t] ∧ ((∃ s, t = .exprHole s) ∨ (∃ s, t = .sourceHole s) ∨ (∃ v s, t = .valueHole v s) ∨
    (∃ l s, t = .bindingsHole l s) ∨ ∃ m s, t = .metaHole m s)
  stmt ts := ∃ t, ts = [t] ∧ ((∃ l s, t = .bindingsHole l s) ∨ ∃ m s, t = .metaHole m s)
  more _ := False
  mac _ := True

/-- `$x` for a name with the property. -/
def IsVar (Q : String → Prop) (ts : List TT) : Prop := ∃ x s1 s2, ts = [.punct '$' s1, .ident x s2] ∧ Q x

/-- The name of a meta variable or of a binding, but not `so_far`. -/
def Known (b : String → Option Value) (x : String) : Prop :=
  (∃ m, m ≠ MetaVar.soFar ∧ m.Named x) ∨ (∀ m : MetaVar, ¬ m.Named x) ∧ b x ≠ none

/-- In a method text: meta variables and names bound by `b`; `more` says that a method to go on from
exists. -/
def template (b : String → Option Value) (more : Prop) : Pieces where
  var := IsVar (Known b)
  stmt := IsVar fun x => ∃ m : MetaVar, m ≠ .soFar ∧ m ≠ .expr ∧ m ≠ .source ∧ m.Named x
  more ts := more ∧ IsVar (MetaVar.soFar.Named ·) ts
  mac := ClosedAll (Known b) false

/-- A method to insert whose text is a chain of calls; `more` as above. -/
def ChainMethod (b : String → Option Value) (more : Prop) (m : Method) : Prop :=
  ∃ dot ts exc, m = .insert dot ts exc ∧ Form (template b more) .trail (.punct '.' dot :: ts)

/-- The methods of a stack are chains of calls; all but the last may use `$so_far`. -/
def ChainStack (b : String → Option Value) : List Method → Prop
  | [] => False
  | [m] => ChainMethod b False m
  | m :: rest => ChainMethod b True m ∧ ChainStack b rest

/-- The parser reads an expression followed by a chain of calls as an expression of the highest
precedence. -/
def ReadsChains (env : Env) : Prop :=
  ∀ dot ts, Form emitted .trail (.punct '.' dot :: ts) → env.insertRear (.punct '.' dot :: ts) = some .whole

end Hooq
