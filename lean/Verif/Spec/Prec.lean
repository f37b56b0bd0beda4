import Verif.Model.Skel

/-!
# Which trees an expression can be read as
-/

namespace Hooq

/-- The expression takes postfix operators as a whole. -/
def PE.IsPost : PE → Prop
  | .atom _ | .paren _ | .post _ _ => True
  | _ => False

/-- The expression ends in something that takes no postfix operator. -/
def PE.Stuck : PE → Prop
  | .bin _ _ r => r.Stuck
  | .pre _ e => e.Stuck
  | .half _ _ | .suf _ _ | .bare _ => True
  | _ => False

/-- An operator of strength `q` after the expression would become part of its right
operand. -/
def PE.Takes (q : Nat) : PE → Prop
  | .bin o _ r => o.rbp ≤ q ∨ r.Takes q
  | .pre p e => p.lvl ≤ q ∨ e.Takes q
  | .half _ _ | .bare _ => True
  | _ => False

/-- The operators from the top along the left operands are at least as strong as `min`. -/
def PE.AtLeast (min : Nat) : PE → Prop
  | .bin o l _ | .half o l => min ≤ o.lbp ∧ l.AtLeast min
  | .suf s l => min ≤ s.lbp ∧ l.AtLeast min
  | _ => True

/-- The tree needs no more parentheses than it has. -/
def PE.WF : PE → Prop
  | .atom _ => True
  | .paren e => e.WF
  | .post e _ => e.WF ∧ e.IsPost
  | .bin o l r => l.WF ∧ r.WF ∧ ¬ l.Takes o.lbp ∧ r.AtLeast o.rbp
  | .half o l => o.opt = true ∧ l.WF ∧ ¬ l.Takes o.lbp
  | .suf s l => l.WF ∧ ¬ l.Takes s.lbp
  | .pre p e => e.WF ∧ e.AtLeast p.lvl
  | .bare p => p.opt = true

/-- Put a method call on the last operand. -/
def PE.onLast (m : String) : PE → PE
  | .bin o l r => .bin o l (r.onLast m)
  | .pre p e => .pre p (e.onLast m)
  | e => .post e m

/-- The expression and its parts. -/
def PE.parts : PE → List PE
  | .atom s => [.atom s]
  | .paren e => .paren e :: e.parts
  | .post e m => .post e m :: e.parts
  | .bin o l r => .bin o l r :: (l.parts ++ r.parts)
  | .half o l => .half o l :: l.parts
  | .suf s l => .suf s l :: l.parts
  | .pre p e => .pre p e :: e.parts
  | .bare p => [.bare p]

/-- The binary operators of Rust, strongest first (The Rust Reference, expression precedence).
Casts and prefix operators are stronger than all of them; ranges are between the last two
rows. -/
def binaryRows : List (List String) :=
  [["*", "/", "%"], ["+", "-"], ["<<", ">>"], ["&"], ["^"], ["|"], ["==", "!=", "<", ">", "<=", ">="], ["&&"], ["||"],
   ["=", "+=", "-=", "*=", "/=", "%=", "^=", "&=", "|=", "<<=", ">>="]]

/-- The operator is in row `r`. -/
def InRow (op : String) (r : Nat) : Prop := ∃ ops, binaryRows[r]? = some ops ∧ op ∈ ops

/-- The expression is what the parser reads from its own text. -/
def Canonical (e : Expr) : Prop := Reads e.skel.print e.skel

/-- The expression can be read, and is an operand of postfix operators as a whole. -/
def Operand (e : Expr) : Prop := Canonical e ∧ e.skel.IsPost

end Hooq
