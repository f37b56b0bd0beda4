import Verif.Spec.Erase
import Verif.Spec.Position
import Mathlib.Data.List.Forall2

/-!
# The meaning of code

A compositional semantics: the meaning of a piece of code is computed from the meanings
of its parts.  What the meanings are and how they are combined is arbitrary (`Meaning`).
The meaning of a hook is a function on meanings.  All of the code counts, except inert
attributes, attributes on `?` expressions and inner attributes of files in macro bodies.

A method that is inserted after an expression applies to what the parser makes its
operand (C50): the last operand of an operator, not the whole.
-/

namespace Hooq

/-- What a node is: the node with all parts that are code on their own left out. -/
inductive Label
  | expr (e : Expr)
  | stmt (s : Stmt)
  | arm (a : Arm)
  | field (f : FieldVal)
  | mac (m : Mac)
  | ev (v : Ev)
  | item (i : Item)
  | implItem (i : ImplItem)
  | traitItem (i : TraitItem)
  | seq     -- a list
  | absent  -- an optional part that is not there

/-- A semantics: nodes in terms of their parts, hooks in terms of their operand.  A hook
that replaces gets what follows it as well, because the parser decides what that applies to. -/
structure Meaning (α : Type) where
  node : Label → List α → α
  insert : HookData → α → α
  replace : HookData → (α → α) → α → α

/-- A list of parts. -/
def Meaning.seq {α : Type} (M : Meaning α) (l : List α) : α := M.node .seq l

/-- Instead of an expression that is left out. -/
def hole : Expr := .mk [] .callSite .infer

/-- Instead of a macro that is left out. -/
def noMac : Mac := .mk { leading := false, segs := [] } .paren (.raw [])

/-- The `?`, with the span of its operand and its own. -/
def questionLabel (sp q : Span) : Label := .expr (.mk [] sp (.try_ hole q))

/-- The hook took the `?` away. -/
def HookData.consumes (hk : HookData) : Prop := hk.kind = .question ∧ hk.exc = true

instance (hk : HookData) : Decidable hk.consumes := by unfold HookData.consumes; infer_instance

/-- A hook on an operand, where `f` is what follows. -/
def Meaning.hook {α : Type} (M : Meaning α) (hk : HookData) (f : α → α) (v : α) : α :=
  match hk.mode with
  | .insert => f (M.insert hk v)
  | .replace => M.replace hk f v

mutual

/-- The meaning of an expression followed by postfix operators `f`. -/
def meanE {α : Type} (M : Meaning α) (f : α → α) : Expr → α
  | .mk attrs sp k => meanK M f attrs sp k

/-- The meaning of an expression given by its parts. -/
def meanK {α : Type} (M : Meaning α) (f : α → α) (attrs : List Attr) (sp : Span) : ExprKind → α
  | .array es => f (M.node (.expr (.mk (foreign attrs) sp (.array []))) [M.seq (meanEs M es)])
  | .assign l r => M.node (.expr (.mk (foreign attrs) sp (.assign hole hole))) [meanE M id l, meanE M f r]
  | .async b => f (M.node (.expr (.mk (foreign attrs) sp (.async []))) [M.seq (meanStmts M b)])
  | .await e => f (M.node (.expr (.mk (foreign attrs) sp (.await hole))) [meanE M id e])
  | .binary l op r => M.node (.expr (.mk (foreign attrs) sp (.binary hole op hole))) [meanE M id l, meanE M f r]
  | .block lb b => f (M.node (.expr (.mk (foreign attrs) sp (.block lb []))) [M.seq (meanStmts M b)])
  | .break_ lb v =>
    (if v.isSome then id else f) (M.node (.expr (.mk (foreign attrs) sp (.break_ lb none))) [meanO M f v])
  | .call g args => f (M.node (.expr (.mk (foreign attrs) sp (.call hole []))) [meanE M id g, M.seq (meanEs M args)])
  | .cast e ty => f (M.node (.expr (.mk (foreign attrs) sp (.cast hole ty))) [meanE M id e])
  | .closure sig body =>
    (if sig.output = .none then id else f) (M.node (.expr (.mk (foreign attrs) sp (.closure sig hole))) [meanE M (if sig.output = .none then f else id) body])
  | .const_ b => f (M.node (.expr (.mk (foreign attrs) sp (.const_ []))) [M.seq (meanStmts M b)])
  | .continue_ lb => f (M.node (.expr (.mk (foreign attrs) sp (.continue_ lb))) [])
  | .field e m => f (M.node (.expr (.mk (foreign attrs) sp (.field hole m))) [meanE M id e])
  | .forLoop hd e b =>
    f (M.node (.expr (.mk (foreign attrs) sp (.forLoop hd hole []))) [meanE M id e, M.seq (meanStmts M b)])
  | .group e => f (M.node (.expr (.mk (foreign attrs) sp (.group hole))) [meanE M id e])
  | .if_ c t e =>
    f (M.node (.expr (.mk (foreign attrs) sp (.if_ hole [] none))) [meanE M id c, M.seq (meanStmts M t), meanO M id e])
  | .index e j => f (M.node (.expr (.mk (foreign attrs) sp (.index hole hole))) [meanE M id e, meanE M id j])
  | .infer => f (M.node (.expr (.mk (foreign attrs) sp (.infer))) [])
  | .let_ p e => M.node (.expr (.mk (foreign attrs) sp (.let_ p hole))) [meanE M f e]
  | .lit l => f (M.node (.expr (.mk (foreign attrs) sp (.lit l))) [])
  | .loop lb b => f (M.node (.expr (.mk (foreign attrs) sp (.loop lb []))) [M.seq (meanStmts M b)])
  | .mac m => f (M.node (.expr (.mk (foreign attrs) sp (.mac noMac))) [meanMac M m])
  | .match_ e arms =>
    f (M.node (.expr (.mk (foreign attrs) sp (.match_ hole []))) [meanE M id e, M.seq (meanArms M arms)])
  | .methodCall r n args =>
    f (M.node (.expr (.mk (foreign attrs) sp (.methodCall hole n []))) [meanE M id r, M.seq (meanEs M args)])
  | .paren e => f (M.node (.expr (.mk (foreign attrs) sp (.paren hole))) [meanE M id e])
  | .path p => f (M.node (.expr (.mk (foreign attrs) sp (.path p))) [])
  | .range s op t =>
    (if t.isSome then id else f) (M.node (.expr (.mk (foreign attrs) sp (.range none op none))) [meanO M id s, meanO M f t])
  | .rawAddr e => M.node (.expr (.mk (foreign attrs) sp (.rawAddr hole))) [meanE M f e]
  | .reference e => M.node (.expr (.mk (foreign attrs) sp (.reference hole))) [meanE M f e]
  | .repeat_ e n => f (M.node (.expr (.mk (foreign attrs) sp (.repeat_ hole hole))) [meanE M id e, meanE M id n])
  | .ret v => (if v.isSome then id else f) (M.node (.expr (.mk (foreign attrs) sp (.ret none))) [meanO M f v])
  | .struct_ hd fs rest =>
    f (M.node (.expr (.mk (foreign attrs) sp (.struct_ hd [] none))) [M.seq (meanFields M fs), meanO M id rest])
  | .try_ e q => f (M.node (questionLabel sp q) [meanE M id e])
  | .tryBlock b => f (M.node (.expr (.mk (foreign attrs) sp (.tryBlock []))) [M.seq (meanStmts M b)])
  | .tuple es => f (M.node (.expr (.mk (foreign attrs) sp (.tuple []))) [M.seq (meanEs M es)])
  | .unary op e => M.node (.expr (.mk (foreign attrs) sp (.unary op hole))) [meanE M f e]
  | .unsafe_ b => f (M.node (.expr (.mk (foreign attrs) sp (.unsafe_ []))) [M.seq (meanStmts M b)])
  | .verbatim ts => f (M.node (.expr (.mk (foreign attrs) sp (.verbatim ts))) [])
  | .while_ lb c b =>
    f (M.node (.expr (.mk (foreign attrs) sp (.while_ lb hole []))) [meanE M id c, M.seq (meanStmts M b)])
  | .yield_ v => (if v.isSome then id else f) (M.node (.expr (.mk (foreign attrs) sp (.yield_ none))) [meanO M f v])
  | .hooked hk arg _ =>
    if hk.consumes ∨ hk.mode = .replace then M.hook hk f (meanE M id arg)
    else meanE M (fun v => f (M.insert hk v)) arg

/-- Expressions. -/
def meanEs {α : Type} (M : Meaning α) : List Expr → List α
  | [] => []
  | e :: es => meanE M id e :: meanEs M es

/-- An optional expression, followed by postfix operators. -/
def meanO {α : Type} (M : Meaning α) (f : α → α) : Option Expr → α
  | none => M.node .absent []
  | some e => meanE M f e

/-- Statements. -/
def meanStmts {α : Type} (M : Meaning α) : List Stmt → List α
  | [] => []
  | s :: ss => meanStmt M s :: meanStmts M ss

/-- A statement. -/
def meanStmt {α : Type} (M : Meaning α) : Stmt → α
  | .localInit attrs pat e dv =>
    M.node (.stmt (.localInit (foreign attrs) pat hole none)) [meanE M id e, meanO M id dv]
  | .localDecl attrs pat => M.node (.stmt (.localDecl (foreign attrs) pat)) []
  | .item i => meanItem M i
  | .expr e semi => M.node (.stmt (.expr hole semi)) [meanE M id e]
  | .mac attrs m semi => M.node (.stmt (.mac (foreign attrs) noMac semi)) [meanMac M m]

/-- Match arms. -/
def meanArms {α : Type} (M : Meaning α) : List Arm → List α
  | [] => []
  | a :: as => meanArm M a :: meanArms M as

/-- A match arm. -/
def meanArm {α : Type} (M : Meaning α) : Arm → α
  | .mk attrs pat guard body =>
    M.node (.arm (.mk (foreign attrs) pat none hole)) [meanO M id guard, meanE M id body]

/-- Struct fields. -/
def meanFields {α : Type} (M : Meaning α) : List FieldVal → List α
  | [] => []
  | f :: fs => meanField M f :: meanFields M fs

/-- A struct field. -/
def meanField {α : Type} (M : Meaning α) : FieldVal → α
  | .mk attrs m e => M.node (.field (.mk (foreign attrs) m hole)) [meanE M id e]

/-- A macro invocation. -/
def meanMac {α : Type} (M : Meaning α) : Mac → α
  | .mk p d body => meanMacBody M p d body

/-- A macro invocation given by its body. -/
def meanMacBody {α : Type} (M : Meaning α) (p : Path) (d : Delim) : MacBody → α
  | .raw ts => M.node (.mac (.mk p d (.raw ts))) []
  | .parsed evs => M.node (.mac (.mk p d (.parsed []))) [M.seq (meanEvs M evs)]

/-- Elements of a macro body. -/
def meanEvs {α : Type} (M : Meaning α) : List Ev → List α
  | [] => []
  | v :: vs => meanEv M v :: meanEvs M vs

/-- An element of a macro body. -/
def meanEv {α : Type} (M : Meaning α) : Ev → α
  | .file _ items sep => M.node (.ev (.file [] [] sep)) [M.seq (meanItems M items)]
  | .item i sep => M.node (.ev (.item (.other [] "") sep)) [meanItem M i]
  | .expr e sep => M.node (.ev (.expr hole sep)) [meanE M id e]
  | .stmt s sep => M.node (.ev (.stmt (.localDecl [] "") sep)) [meanStmt M s]

/-- Items. -/
def meanItems {α : Type} (M : Meaning α) : List Item → List α
  | [] => []
  | i :: is => meanItem M i :: meanItems M is

/-- An item.  The body of a `macro_rules!` is part of the label. -/
def meanItem {α : Type} (M : Meaning α) : Item → α
  | .fn attrs sig body => M.node (.item (.fn (foreign attrs) sig [])) [M.seq (meanStmts M body)]
  | .impl_ attrs hd items => M.node (.item (.impl_ (foreign attrs) hd [])) [M.seq (meanImplItems M items)]
  | .mod_ attrs name items => M.node (.item (.mod_ (foreign attrs) name [])) [M.seq (meanItems M items)]
  | .const_ attrs hd e => M.node (.item (.const_ (foreign attrs) hd hole)) [meanE M id e]
  | .static_ attrs hd e => M.node (.item (.static_ (foreign attrs) hd hole)) [meanE M id e]
  | .trait_ attrs hd items => M.node (.item (.trait_ (foreign attrs) hd [])) [M.seq (meanTraitItems M items)]
  | .mac attrs m => M.node (.item (.mac (foreign attrs) noMac)) [meanMac M m]
  | .macroRules attrs name m => M.node (.item (.macroRules (foreign attrs) name (cleanMac true m))) []
  | .other attrs text => M.node (.item (.other (foreign attrs) text)) []

/-- Impl items. -/
def meanImplItems {α : Type} (M : Meaning α) : List ImplItem → List α
  | [] => []
  | i :: is => meanImplItem M i :: meanImplItems M is

/-- An impl item. -/
def meanImplItem {α : Type} (M : Meaning α) : ImplItem → α
  | .fn attrs sig body => M.node (.implItem (.fn (foreign attrs) sig [])) [M.seq (meanStmts M body)]
  | .const_ attrs hd e => M.node (.implItem (.const_ (foreign attrs) hd hole)) [meanE M id e]
  | .mac attrs m => M.node (.implItem (.mac (foreign attrs) noMac)) [meanMac M m]
  | .other attrs text => M.node (.implItem (.other (foreign attrs) text)) []

/-- Trait items. -/
def meanTraitItems {α : Type} (M : Meaning α) : List TraitItem → List α
  | [] => []
  | i :: is => meanTraitItem M i :: meanTraitItems M is

/-- A trait item. -/
def meanTraitItem {α : Type} (M : Meaning α) : TraitItem → α
  | .const_ attrs hd e => M.node (.traitItem (.const_ (foreign attrs) hd hole)) [meanE M id e]
  | .fn attrs sig body => M.node (.traitItem (.fn (foreign attrs) sig [])) [M.seq (meanStmts M body)]
  | .mac attrs m => M.node (.traitItem (.mac (foreign attrs) noMac)) [meanMac M m]
  | .other attrs text => M.node (.traitItem (.other (foreign attrs) text)) []

end

/-- The meaning of an item. -/
def Meaning.of {α : Type} (M : Meaning α) (i : Item) : α := meanItem M i

/-- The hook occurs in the item. -/
def Item.Hooked (i : Item) (hk : HookData) : Prop :=
  ∃ p n, i.tree.sub p = some n ∧ ∃ m ∈ n.marks, m.1 = hk

/-- `f` changes nothing that `R` can see. -/
def Silent {α : Type} (R : α → α → Prop) (f : α → α) : Prop := ∀ a b, R a b → R (f a) b

/-- A hook that changes nothing that `R` can see: with the hook the operand means the
same as without, and where the hook took the `?` away, it does what the `?` does. -/
def Transparent {α : Type} (M : Meaning α) (R : α → α → Prop) (hk : HookData) : Prop :=
  ∀ f, Silent R f → ∀ a b, R a b →
    if hk.consumes then ∀ sp, R (M.hook hk f a) (M.node (questionLabel sp hk.span) [b])
    else R (M.hook hk f a) b

/-- All nodes take related parts to related wholes. -/
def Congruent {α : Type} (M : Meaning α) (R : α → α → Prop) : Prop :=
  ∀ l {as bs : List α}, List.Forall₂ R as bs → R (M.node l as) (M.node l bs)

end Hooq
