import Verif.Model.Spliced

/-!
# Which local variables of the expansion a spliced value can see

A reader of Rust code from left to right.  It knows `let x … ;`, which puts `x` in scope
behind the semicolon to the end of the surrounding group, and closure parameters
`|x, y|`, which are in scope from there to the end of the surrounding group.  That is all
the generated code and the built-in methods use.  Patterns other than a name, and closures
inside the right hand side of a `let` at the same level, are not read.
-/

namespace Hooq

/-- Where the reader is. -/
inductive Reading
  /-- between statements, or in an expression -/
  | plain
  /-- behind `let` -/
  | afterLet
  /-- in `let x … ;` -/
  | inLet (x : String)
  /-- between the bars of a closure, with the names read so far -/
  | params (xs : List String)

/-- The names in scope and the state behind a token. -/
def Reading.next (names : List String) : Reading → TT → List String × Reading
  | .plain, .ident s _ => (names, if s = "let" then .afterLet else .plain)
  | .plain, .punct c _ => (names, if c = '|' then .params [] else .plain)
  | .afterLet, .ident s _ => (names, .inLet s)
  | .inLet x, .punct c _ => if c = ';' then (x :: names, .plain) else (names, .inLet x)
  | .params xs, .ident s _ => (names, .params (s :: xs))
  | .params xs, .punct c _ => if c = '|' then (xs ++ names, .plain) else (names, .params xs)
  | m, _ => (names, m)

mutual
/-- The values in a token, each with the names in scope there; `own` says which values
a token that is not a group stands for. -/
def TT.seenIn (own : List String → TT → List (Value × List String)) (names : List String) :
    TT → List (Value × List String)
  | .group _ ts _ => seenIn own names .plain ts
  | t => own names t
/-- The values in a token sequence, each with the names in scope there. -/
def seenIn (own : List String → TT → List (Value × List String)) (names : List String) (m : Reading) :
    List TT → List (Value × List String)
  | [] => []
  | t :: ts => t.seenIn own names ++ seenIn own (m.next names t).1 (m.next names t).2 ts
end

/-- A spliced value itself. -/
def ownValue (names : List String) : TT → List (Value × List String)
  | .valueHole v _ => [(v, names)]
  | _ => []

/-- The values that the tokens behind one token of the model bring. -/
def splicedValues (src : String) (names : List String) : TT → List (Value × List String)
  | .bindingsHole l _ => seenIn ownValue names .plain (bindingsTokens l)
  | .metaHole m _ => seenIn ownValue names .plain (metaTokens src m)
  | t => ownValue names t

/-- The values spliced into code, in order, each with the local variables of that code it
can see, the innermost first.  `src` is the source text of `$hooq_meta`. -/
def capturing (src : String) (ts : List TT) : List (Value × List String) :=
  seenIn (splicedValues src) [] .plain ts

/-- A token of a path. -/
def TT.InPath : TT → Prop
  | .ident s _ => s ≠ "let"
  | .punct c _ => c = ':'
  | _ => False

end Hooq
