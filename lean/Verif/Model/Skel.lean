import Verif.Model.Prec
import Verif.Model.Walker

/-!
# Expressions as the operator parser sees them

The table of strengths is Rust's (The Rust Reference, expression precedence), which
`syn` follows.
-/

namespace Hooq

/-- Strength of a binary operator; assignment operators are the weakest.
For reading of `parse_quote!` in /repo/hooq-macros/src/impls/method/render/mod.rs:51-82. -/
def opLevel (op : String) : Nat :=
  if op ∈ ["*", "/", "%"] then 12
  else if op ∈ ["+", "-"] then 11
  else if op ∈ ["<<", ">>"] then 10
  else if op = "&" then 9
  else if op = "^" then 8
  else if op = "|" then 7
  else if op ∈ ["==", "!=", "<", ">", "<=", ">="] then 6
  else if op = "&&" then 4
  else if op = "||" then 3
  else 1

/-- A binary operator: all group to the left except assignments.
For reading of `parse_quote!` in /repo/hooq-macros/src/impls/method/render/mod.rs:51-82. -/
def infixOf (op : String) : Infix :=
  { text := op, lbp := opLevel op, rbp := if opLevel op = 1 then 1 else opLevel op + 1, opt := false }

/-- The operators of an expression down to the first delimiters; everything that ends
with a delimiter or a single token is an atom.  The expressions of
/repo/hooq-macros/src/impls/walker/mod.rs:396-1047, printed by `quote!` in
/repo/hooq-macros/src/impls/method/render/mod.rs:51-58.  Simplification: attributes are
left out; of an expression the macro built only its recorded shape is known. -/
def Expr.skel : Expr → PE
  | .mk _ _ k => match k with
    | .assign l r => .bin (infixOf "=") l.skel r.skel
    | .binary l op r => .bin (infixOf op) l.skel r.skel
    | .range (some l) op (some r) => .bin { text := op, lbp := 2, rbp := 3, opt := op = ".." } l.skel r.skel
    | .range (some l) op none => .half { text := op, lbp := 2, rbp := 3, opt := op = ".." } l.skel
    | .range none op (some r) => .pre { text := op, lvl := 3, opt := op = ".." } r.skel
    | .range none op none => .bare { text := op, lvl := 3, opt := op = ".." }
    | .cast e ty => .suf { text := ty, lbp := 13 } e.skel
    | .unary op e => .pre { text := op, lvl := 14, opt := false } e.skel
    | .reference e => .pre { text := "&", lvl := 14, opt := false } e.skel
    | .rawAddr e => .pre { text := "&raw", lvl := 14, opt := false } e.skel
    | .let_ pat e => .pre { text := pat, lvl := 5, opt := false } e.skel
    | .ret (some e) => .pre { text := "return", lvl := 0, opt := true } e.skel
    | .ret none => .bare { text := "return", lvl := 0, opt := true }
    | .break_ l (some e) => .pre { text := l, lvl := 0, opt := true } e.skel
    | .break_ l none => .bare { text := l, lvl := 0, opt := true }
    | .yield_ (some e) => .pre { text := "yield", lvl := 0, opt := true } e.skel
    | .yield_ none => .bare { text := "yield", lvl := 0, opt := true }
    | .closure sig e =>
      if sig.output = .none then .pre { text := "||", lvl := 0, opt := false } e.skel else .atom "closure"
    | .await e => .post e.skel ".await"
    | .field e m => .post e.skel m
    | .methodCall e m _ => .post e.skel m
    | .index e _ => .post e.skel "[]"
    | .call e _ => .post e.skel "()"
    | .try_ e _ => .post e.skel "?"
    | .paren e => .paren e.skel
    | .group e => .paren e.skel
    | .hooked hk arg _ => match hk.shape with
      | .same => arg.skel
      | .path _ | .call _ | .other .whole => .atom "hooked"
      | .other .part => .pre { text := "", lvl := 0, opt := false } (.atom "hooked")
      | .other .stuck => .suf { text := "", lbp := 0 } (.atom "hooked")
    | _ => .atom "atom"

end Hooq
