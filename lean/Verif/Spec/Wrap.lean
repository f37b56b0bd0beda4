import Verif.Spec.Chain

/-!
# Methods that are expressions around the operand

In the grammar of `Spec/Chain.lean`, `$expr` stands where every expression may stand (as an argument, in
parentheses, behind `=` or as the body of a closure), not in front of a `.`.
-/

namespace Hooq

/-- A method that replaces, whose text is an expression; if the methods that it overrides are chains of calls, `$so_far`
may stand after a dot. -/
def WrapStack (b : String → Option Value) : List Method → Prop
  | [] => False
  | m :: rest => ∃ ts exc, m = .replace ts exc ∧ Form (template b (ChainStack b rest)) .expr ts

/-- The parser reads expressions, whatever expression is the operand in them. -/
def ReadsExprs (env : Env) : Prop :=
  ∀ ts, Form emitted .expr ts → ∀ rear, ∃ sh, env.replaceShape rear ts = some sh

end Hooq
