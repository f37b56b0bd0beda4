/-!
# Operator precedence

`render_expr_with_method` (/repo/hooq-macros/src/impls/method/render/mod.rs:51-58) writes
`#expr #dot #method` and parses the result again.  This is a model of that parser, the
expression parser of `syn` (library), as far as it decides what an operator applies to.
The operators are parameters.  Simplifications: everything that is delimited or begins
with a keyword and ends with a delimiter (calls, blocks, `if`, `match`, ...) is one
token `atom`, everything that follows an operand at the highest precedence (`.m(..)`,
`.await`, `?`, `[..]`, `(..)`) is one token `post`; a token that can be both prefix and
infix (`-`, `&`, `*`, `..`, `|`) is told apart already; chains of comparisons are not
rejected.
-/

namespace Hooq

/-- An infix operator: with what strength it binds to the left and to the right, and
whether its right operand may be missing (`a..`).
For reading of `parse_quote!` in /repo/hooq-macros/src/impls/method/render/mod.rs:51-82. -/
structure Infix where
  text : String
  lbp : Nat
  rbp : Nat
  opt : Bool
deriving DecidableEq, Repr

/-- A prefix: the strength with which it takes its operand, and whether that may be
missing (`return`).  Closure heads are also prefixes.
For reading of `parse_quote!` in /repo/hooq-macros/src/impls/method/render/mod.rs:51-82. -/
structure Prefix where
  text : String
  lvl : Nat
  opt : Bool
deriving DecidableEq, Repr

/-- A suffix weaker than method calls: `as T`.
For reading of `parse_quote!` in /repo/hooq-macros/src/impls/method/render/mod.rs:51-82. -/
structure Suffix where
  text : String
  lbp : Nat
deriving DecidableEq, Repr

/-- Tokens.
For reading of `parse_quote!` in /repo/hooq-macros/src/impls/method/render/mod.rs:51-82. -/
inductive XTok where
  | atom (s : String)
  | lp
  | rp
  | post (m : String)
  | bin (o : Infix)
  | suf (s : Suffix)
  | pre (p : Prefix)
deriving DecidableEq, Repr

/-- Expressions.  `half` is an infix operator without right operand, `bare` a prefix
without operand.
For reading of `parse_quote!` in /repo/hooq-macros/src/impls/method/render/mod.rs:51-82. -/
inductive PE where
  | atom (s : String)
  | paren (e : PE)
  | post (e : PE) (m : String)
  | bin (o : Infix) (l r : PE)
  | half (o : Infix) (l : PE)
  | suf (s : Suffix) (l : PE)
  | pre (p : Prefix) (e : PE)
  | bare (p : Prefix)
deriving DecidableEq, Repr

/-- `quote!` of an expression.
For reading of `parse_quote!` in /repo/hooq-macros/src/impls/method/render/mod.rs:51-82. -/
def PE.print : PE → List XTok
  | .atom s => [.atom s]
  | .paren e => .lp :: (e.print ++ [.rp])
  | .post e m => e.print ++ [.post m]
  | .bin o l r => l.print ++ .bin o :: r.print
  | .half o l => l.print ++ [.bin o]
  | .suf s l => l.print ++ [.suf s]
  | .pre p e => .pre p :: e.print
  | .bare p => [.pre p]

/-- Where an optional operand is taken to be missing: at the end, before a closing
delimiter (which for `syn` is an end as well), and before a postfix operator.
Simplification: `syn` reports an error when a postfix operator follows `return`, `break`
or `yield`; here the operator is left over, which is an error as well.
For reading of `parse_quote!` in /repo/hooq-macros/src/impls/method/render/mod.rs:43-82. -/
def ends : List XTok → Bool
  | [] | .rp :: _ | .post _ :: _ => true
  | _ => false

/-- The loop over postfix operators (`trailer_helper`).
For reading of `parse_quote!` in /repo/hooq-macros/src/impls/method/render/mod.rs:51-82. -/
def postLoop (e : PE) : List XTok → PE × List XTok
  | .post m :: r => postLoop (.post e m) r
  | r => (e, r)

mutual
/-- An operand with its prefixes and postfix operators (`unary_expr`, `atom_expr`).
For reading of `parse_quote!` in /repo/hooq-macros/src/impls/method/render/mod.rs:51-82. -/
def parseOperand : Nat → List XTok → Option (PE × List XTok)
  | 0, _ => none
  | n + 1, ts =>
    match ts with
    | .atom s :: r => some (postLoop (.atom s) r)
    | .lp :: r =>
      match parseExpr n 0 r with
      | some (e, .rp :: r) => some (postLoop (.paren e) r)
      | _ => none
    | .pre p :: r =>
      if p.opt && ends r then some (.bare p, r)
      else
        match parseExpr n p.lvl r with
        | some (e, r) => some (.pre p e, r)
        | none => none
    | _ => none
/-- An expression whose operators bind at least as strong as `min`.
For reading of `parse_quote!` in /repo/hooq-macros/src/impls/method/render/mod.rs:51-82. -/
def parseExpr : Nat → Nat → List XTok → Option (PE × List XTok)
  | 0, _, _ => none
  | n + 1, min, ts =>
    match parseOperand n ts with
    | some (e, r) => opLoop n min e r
    | none => none
/-- The loop over operators (`parse_expr`).
For reading of `parse_quote!` in /repo/hooq-macros/src/impls/method/render/mod.rs:51-82. -/
def opLoop : Nat → Nat → PE → List XTok → Option (PE × List XTok)
  | 0, _, _, _ => none
  | n + 1, min, l, ts =>
    match ts with
    | .bin o :: r =>
      if min ≤ o.lbp then
        if o.opt && ends r then opLoop n min (.half o l) r
        else
          match parseExpr n o.rbp r with
          | some (e, r) => opLoop n min (.bin o l e) r
          | none => none
      else some (l, ts)
    | .suf s :: r => if min ≤ s.lbp then opLoop n min (.suf s l) r else some (l, ts)
    | ts => some (l, ts)
end

/-- `syn::parse2::<Expr>`: the expression that the whole text is.
For reading of `parse_quote!` in /repo/hooq-macros/src/impls/method/render/mod.rs:43-82. -/
def Reads (ts : List XTok) (e : PE) : Prop := ∃ n, parseExpr n 0 ts = some (e, [])

end Hooq
