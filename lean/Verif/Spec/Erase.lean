import Verif.Model.Walker
import Verif.Spec.Attr

/-!
# Erasing hooks and inert attributes

Works on syntax trees, so that all parts of the code are compared, including
operators, patterns, names, labels and separators.  With `lo` (loose) the attributes
on a `?` expression and the inner attributes of a file in a macro body are erased
too.
-/

namespace Hooq

/-- The attributes that are not inert attributes of the macro. -/
def foreign (attrs : List Attr) : List Attr := attrs.filter fun a => !a.isInert

mutual

/-- Erase from an expression. -/
def cleanE (lo : Bool) : Expr → Expr
  | .mk attrs sp k => cleanK lo attrs sp k

/-- Erase from an expression given by its parts.  A hook is replaced by its operand;
if it consumed the `?`, the `?` is put back. -/
def cleanK (lo : Bool) (attrs : List Attr) (sp : Span) : ExprKind → Expr
  | .array es => .mk (foreign attrs) sp (.array (cleanEs lo es))
  | .assign l r => .mk (foreign attrs) sp (.assign (cleanE lo l) (cleanE lo r))
  | .async b => .mk (foreign attrs) sp (.async (cleanStmts lo b))
  | .await e => .mk (foreign attrs) sp (.await (cleanE lo e))
  | .binary l op r => .mk (foreign attrs) sp (.binary (cleanE lo l) op (cleanE lo r))
  | .block lb b => .mk (foreign attrs) sp (.block lb (cleanStmts lo b))
  | .break_ lb v => .mk (foreign attrs) sp (.break_ lb (cleanO lo v))
  | .call f args => .mk (foreign attrs) sp (.call (cleanE lo f) (cleanEs lo args))
  | .cast e ty => .mk (foreign attrs) sp (.cast (cleanE lo e) ty)
  | .closure sig body => .mk (foreign attrs) sp (.closure sig (cleanE lo body))
  | .const_ b => .mk (foreign attrs) sp (.const_ (cleanStmts lo b))
  | .continue_ lb => .mk (foreign attrs) sp (.continue_ lb)
  | .field e m => .mk (foreign attrs) sp (.field (cleanE lo e) m)
  | .forLoop hd e b => .mk (foreign attrs) sp (.forLoop hd (cleanE lo e) (cleanStmts lo b))
  | .group e => .mk (foreign attrs) sp (.group (cleanE lo e))
  | .if_ cond thn els => .mk (foreign attrs) sp (.if_ (cleanE lo cond) (cleanStmts lo thn) (cleanO lo els))
  | .index e i => .mk (foreign attrs) sp (.index (cleanE lo e) (cleanE lo i))
  | .infer => .mk (foreign attrs) sp (.infer)
  | .let_ p e => .mk (foreign attrs) sp (.let_ p (cleanE lo e))
  | .lit l => .mk (foreign attrs) sp (.lit l)
  | .loop lb b => .mk (foreign attrs) sp (.loop lb (cleanStmts lo b))
  | .mac m => .mk (foreign attrs) sp (.mac (cleanMac lo m))
  | .match_ e arms => .mk (foreign attrs) sp (.match_ (cleanE lo e) (cleanArms lo arms))
  | .methodCall r n args => .mk (foreign attrs) sp (.methodCall (cleanE lo r) n (cleanEs lo args))
  | .paren e => .mk (foreign attrs) sp (.paren (cleanE lo e))
  | .path p => .mk (foreign attrs) sp (.path p)
  | .range s op t => .mk (foreign attrs) sp (.range (cleanO lo s) op (cleanO lo t))
  | .rawAddr e => .mk (foreign attrs) sp (.rawAddr (cleanE lo e))
  | .reference e => .mk (foreign attrs) sp (.reference (cleanE lo e))
  | .repeat_ e n => .mk (foreign attrs) sp (.repeat_ (cleanE lo e) (cleanE lo n))
  | .ret v => .mk (foreign attrs) sp (.ret (cleanO lo v))
  | .struct_ hd fs rest => .mk (foreign attrs) sp (.struct_ hd (cleanFields lo fs) (cleanO lo rest))
  | .try_ e q => .mk (if lo then [] else foreign attrs) sp (.try_ (cleanE lo e) q)
  | .tryBlock b => .mk (foreign attrs) sp (.tryBlock (cleanStmts lo b))
  | .tuple es => .mk (foreign attrs) sp (.tuple (cleanEs lo es))
  | .unary op e => .mk (foreign attrs) sp (.unary op (cleanE lo e))
  | .unsafe_ b => .mk (foreign attrs) sp (.unsafe_ (cleanStmts lo b))
  | .verbatim ts => .mk (foreign attrs) sp (.verbatim ts)
  | .while_ lb cond b => .mk (foreign attrs) sp (.while_ lb (cleanE lo cond) (cleanStmts lo b))
  | .yield_ v => .mk (foreign attrs) sp (.yield_ (cleanO lo v))
  | .hooked hk arg src =>
    if hk.kind = .question ∧ hk.exc = true then
      (match src with
      | .mk _ qsp (.try_ _ q) => .mk [] qsp (.try_ (cleanE lo arg) q)
      | _ => cleanE lo arg)
    else cleanE lo arg

/-- Erase from expressions. -/
def cleanEs (lo : Bool) : List Expr → List Expr
  | [] => []
  | e :: es => cleanE lo e :: cleanEs lo es

/-- Erase from an optional expression. -/
def cleanO (lo : Bool) : Option Expr → Option Expr
  | none => none
  | some e => some (cleanE lo e)

/-- Erase from statements. -/
def cleanStmts (lo : Bool) : List Stmt → List Stmt
  | [] => []
  | s :: ss => cleanStmt lo s :: cleanStmts lo ss

/-- Erase from a statement. -/
def cleanStmt (lo : Bool) : Stmt → Stmt
  | .localInit attrs pat e dv => .localInit (foreign attrs) pat (cleanE lo e) (cleanO lo dv)
  | .localDecl attrs pat => .localDecl (foreign attrs) pat
  | .item i => .item (cleanItem lo i)
  | .expr e semi => .expr (cleanE lo e) semi
  | .mac attrs m semi => .mac (foreign attrs) (cleanMac lo m) semi

/-- Erase from match arms. -/
def cleanArms (lo : Bool) : List Arm → List Arm
  | [] => []
  | a :: as => cleanArm lo a :: cleanArms lo as

/-- Erase from a match arm. -/
def cleanArm (lo : Bool) : Arm → Arm
  | .mk attrs pat guard body => .mk (foreign attrs) pat (cleanO lo guard) (cleanE lo body)

/-- Erase from struct fields. -/
def cleanFields (lo : Bool) : List FieldVal → List FieldVal
  | [] => []
  | f :: fs => cleanField lo f :: cleanFields lo fs

/-- Erase from a struct field. -/
def cleanField (lo : Bool) : FieldVal → FieldVal
  | .mk attrs m e => .mk (foreign attrs) m (cleanE lo e)

/-- Erase from a macro invocation. -/
def cleanMac (lo : Bool) : Mac → Mac
  | .mk p d body => .mk p d (cleanMacBody lo body)

/-- Erase from a macro body. -/
def cleanMacBody (lo : Bool) : MacBody → MacBody
  | .raw ts => .raw ts
  | .parsed evs => .parsed (cleanEvs lo evs)

/-- Erase from the elements of a macro body. -/
def cleanEvs (lo : Bool) : List Ev → List Ev
  | [] => []
  | v :: vs => cleanEv lo v :: cleanEvs lo vs

/-- Erase from an element of a macro body. -/
def cleanEv (lo : Bool) : Ev → Ev
  | .file attrs items sep => .file (if lo then [] else attrs) (cleanItems lo items) sep
  | .item i sep => .item (cleanItem lo i) sep
  | .expr e sep => .expr (cleanE lo e) sep
  | .stmt s sep => .stmt (cleanStmt lo s) sep

/-- Erase from items. -/
def cleanItems (lo : Bool) : List Item → List Item
  | [] => []
  | i :: is => cleanItem lo i :: cleanItems lo is

/-- Erase from an item. -/
def cleanItem (lo : Bool) : Item → Item
  | .fn attrs sig body => .fn (foreign attrs) sig (cleanStmts lo body)
  | .impl_ attrs hd items => .impl_ (foreign attrs) hd (cleanImplItems lo items)
  | .mod_ attrs name items => .mod_ (foreign attrs) name (cleanItems lo items)
  | .const_ attrs hd e => .const_ (foreign attrs) hd (cleanE lo e)
  | .static_ attrs hd e => .static_ (foreign attrs) hd (cleanE lo e)
  | .trait_ attrs hd items => .trait_ (foreign attrs) hd (cleanTraitItems lo items)
  | .mac attrs m => .mac (foreign attrs) (cleanMac lo m)
  | .macroRules attrs name m => .macroRules (foreign attrs) name (cleanMac lo m)
  | .other attrs text => .other (foreign attrs) text

/-- Erase from impl items. -/
def cleanImplItems (lo : Bool) : List ImplItem → List ImplItem
  | [] => []
  | i :: is => cleanImplItem lo i :: cleanImplItems lo is

/-- Erase from an impl item. -/
def cleanImplItem (lo : Bool) : ImplItem → ImplItem
  | .fn attrs sig body => .fn (foreign attrs) sig (cleanStmts lo body)
  | .const_ attrs hd e => .const_ (foreign attrs) hd (cleanE lo e)
  | .mac attrs m => .mac (foreign attrs) (cleanMac lo m)
  | .other attrs text => .other (foreign attrs) text

/-- Erase from trait items. -/
def cleanTraitItems (lo : Bool) : List TraitItem → List TraitItem
  | [] => []
  | i :: is => cleanTraitItem lo i :: cleanTraitItems lo is

/-- Erase from a trait item. -/
def cleanTraitItem (lo : Bool) : TraitItem → TraitItem
  | .const_ attrs hd e => .const_ (foreign attrs) hd (cleanE lo e)
  | .fn attrs sig body => .fn (foreign attrs) sig (cleanStmts lo body)
  | .mac attrs m => .mac (foreign attrs) (cleanMac lo m)
  | .other attrs text => .other (foreign attrs) text

end

end Hooq
