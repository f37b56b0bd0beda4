import Verif.Model.Walker

/-!
# Reading the body of a macro invocation

/repo/hooq-macros/src/impls/walker/walk_macro.rs:36-43 and 84-161.  The parsers of `syn`
are parameters.
-/

namespace Hooq

/-- What is read at one place, /repo/hooq-macros/src/impls/walker/walk_macro.rs:88-94
(`Evaluable`). -/
inductive EvPiece
  | file (attrs : List Attr) (items : List Item)
  | item (i : Item)
  | expr (e : Expr)
  | stmt (s : Stmt)

/-- A piece with its separator, an element of `EvaluableList`.
For /repo/hooq-macros/src/impls/walker/walk_macro.rs:138-161. -/
def EvPiece.withSep (s : Sep) : EvPiece → Ev
  | .file a l => .file a l s
  | .item i => .item i s
  | .expr e => .expr e s
  | .stmt x => .stmt x s

/-- The parsers of `syn` (library) for the types named, each with the tokens it leaves.
They are functions of the tokens.
For /repo/hooq-macros/src/impls/walker/walk_macro.rs:97-133. -/
structure SynParsers where
  file : List TT → Option ((List Attr × List Item) × List TT)
  item : List TT → Option (Item × List TT)
  expr : List TT → Option (Expr × List TT)
  stmt : List TT → Option (Stmt × List TT)

/-- `forked.peek(Token![;]) || forked.peek(Token![,]) || forked.is_empty()`.
For /repo/hooq-macros/src/impls/walker/walk_macro.rs:100, 108, 116, 124. -/
def atEnd : List TT → Bool
  | [] => true
  | t :: _ => t.isPunct ';' || t.isPunct ','

/-- One attempt: the result counts only if it stops at a separator or the end.
For /repo/hooq-macros/src/impls/walker/walk_macro.rs:97-133. -/
def attempt {α : Type} (p : List TT → Option (α × List TT)) (ts : List TT) : Option (α × List TT) :=
  match p ts with
  | some (a, r) => if atEnd r then some (a, r) else none
  | none => none

/-- `Evaluable::parse`, /repo/hooq-macros/src/impls/walker/walk_macro.rs:96-135. -/
def parsePiece (P : SynParsers) (ts : List TT) : Option (EvPiece × List TT) :=
  match attempt P.file ts with
  | some (f, r) => some (.file f.1 f.2, r)
  | none =>
    match attempt P.item ts with
    | some (i, r) => some (.item i, r)
    | none =>
      match attempt P.expr ts with
      | some (e, r) => some (.expr e, r)
      | none =>
        match attempt P.stmt ts with
        | some (s, r) => some (.stmt s, r)
        | none => none

/-- The separator, /repo/hooq-macros/src/impls/walker/walk_macro.rs:148-154. -/
def takeSep : List TT → Sep × List TT
  | [] => (.none, [])
  | t :: r => if t.isPunct ',' then (.comma, r) else if t.isPunct ';' then (.semi, r) else (.none, t :: r)

/-- `EvaluableList::parse`, /repo/hooq-macros/src/impls/walker/walk_macro.rs:140-160.  The
loop is given fuel; `C54_fuel` shows that the number of tokens is enough when no parser
succeeds without reading a token. -/
def parseEvs (P : SynParsers) : Nat → List TT → Option (List Ev)
  | _, [] => some []
  | 0, _ :: _ => none
  | n + 1, t :: ts =>
    match parsePiece P (t :: ts) with
    | none => none
    | some (p, r) =>
      match parseEvs P n (takeSep r).2 with
      | none => none
      | some l => some (p.withSep (takeSep r).1 :: l)

/-- `syn::parse2::<EvaluableList>` in `handle_token_stream`,
/repo/hooq-macros/src/impls/walker/walk_macro.rs:40-43: the body as the walker sees it. -/
def readBody (P : SynParsers) (ts : List TT) : MacBody :=
  match parseEvs P ts.length ts with
  | some evs => .parsed evs
  | none => .raw ts

end Hooq
