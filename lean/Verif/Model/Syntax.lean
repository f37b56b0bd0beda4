import Verif.Model.Token

/-!
# Syntax trees

`syn::Expr`, `Stmt`, `Item` and friends, one constructor per variant that
/repo/hooq-macros/src/impls/walker/mod.rs distinguishes.  Parts the walker never
looks at (patterns, types, labels, generics, visibilities, operators) are opaque
strings.
-/

namespace Hooq

/-- Declared return type as far as the code inspects it: none, a path type, or any
other type (/repo/hooq-macros/src/impls/utils/function_info.rs:83-91). -/
inductive RetType
  | none
  | path (p : Path)
  | other (text : String)
deriving DecidableEq, Repr, Inhabited

/-- A function signature: name, return type and printed form.
For /repo/hooq-macros/src/impls/utils/function_info.rs:47-71. -/
structure Sig where
  ident : String
  output : RetType
  text : String
deriving DecidableEq, Repr, Inhabited

/-- A closure header: return type and printed form with an empty body
(/repo/hooq-macros/src/impls/utils/function_info.rs:21-23). -/
structure CSig where
  output : RetType
  text : String
deriving DecidableEq, Repr, Inhabited

/-- Insert after the operand or replace it
(/repo/hooq-macros/src/impls/method/mod.rs:9-13). -/
inductive Mode
  | insert | replace
deriving DecidableEq, Repr, Inhabited

/-- What happens when `.m()` is written directly after an expression: it applies to
the whole expression, to a part at its right end, or the text does not parse
(`syn`'s grammar: postfix operators bind tighter than all others, and a cast or an
open range cannot be followed by a method call).
For /repo/hooq-macros/src/impls/method/render/mod.rs:43-53. -/
inductive Rear
  | whole | part | stuck
deriving DecidableEq, Repr, Inhabited

/-- The end of an expression whose last operand ends like this.
For /repo/hooq-macros/src/impls/method/render/mod.rs:41-53. -/
def Rear.inner : Rear → Rear
  | .whole => .part
  | .part => .part
  | .stuck => .stuck

/-- How the replacement text re-parses, as far as the code later inspects it
(`target_call_check_bools`, /repo/hooq-macros/src/impls/walker/mod.rs:44-58):
`same` if it is just `$expr`, a path, a call of a path, or anything else with the
given rear. -/
inductive Shape
  | same
  | path (p : Path)
  | call (p : Path)
  | other (r : Rear)
deriving DecidableEq, Repr, Inhabited

/-- Record of one inserted hook: target kind, mode, emitted tokens (in insert mode
those after the operand, beginning with the `.`), whether the
method carried the consume marker, how the result re-parses,
the anchor span, and the number that `$count` shows.
For /repo/hooq-macros/src/impls/method/render/mod.rs:22-87. -/
structure HookData where
  kind : Kind
  mode : Mode
  toks : List TT
  exc : Bool
  shape : Shape
  span : Span
  count : Nat
deriving Repr, Inhabited

/-- Separator after an element of a macro body
(/repo/hooq-macros/src/impls/walker/walk_macro.rs:137-161). -/
inductive Sep
  | none | comma | semi
deriving DecidableEq, Repr, Inhabited

mutual

/-- Expressions with their attributes and the span of their own first token.
For /repo/hooq-macros/src/impls/walker/mod.rs:396-1047. -/
inductive Expr
  | mk (attrs : List Attr) (span : Span) (kind : ExprKind)

/-- Variants of `syn::Expr`.  `hooked` does not occur in source code: it stands for
the expression the macro builds from `arg` and the expanded method; `src` is what
`$source` refers to.
For /repo/hooq-macros/src/impls/walker/mod.rs:396-1047. -/
inductive ExprKind
  | array (elems : List Expr)
  | assign (left right : Expr)
  | async (body : List Stmt)
  | await (base : Expr)
  | binary (left : Expr) (op : String) (right : Expr)
  | block (label : String) (body : List Stmt)
  | break_ (label : String) (value : Option Expr)
  | call (func : Expr) (args : List Expr)
  | cast (e : Expr) (ty : String)
  | closure (sig : CSig) (body : Expr)
  | const_ (body : List Stmt)
  | continue_ (label : String)
  | field (base : Expr) (member : String)
  | forLoop (head : String) (e : Expr) (body : List Stmt)
  | group (e : Expr)
  | if_ (cond : Expr) (thn : List Stmt) (els : Option Expr)
  | index (e : Expr) (idx : Expr)
  | infer
  | let_ (pat : String) (e : Expr)
  | lit (l : Lit)
  | loop (label : String) (body : List Stmt)
  | mac (m : Mac)
  | match_ (e : Expr) (arms : List Arm)
  | methodCall (recv : Expr) (name : String) (args : List Expr)
  | paren (e : Expr)
  | path (p : Path)
  | range (start : Option Expr) (op : String) (stop : Option Expr)
  | rawAddr (e : Expr)
  | reference (e : Expr)
  | repeat_ (e len : Expr)
  | ret (value : Option Expr)
  | struct_ (head : String) (fields : List FieldVal) (rest : Option Expr)
  | try_ (e : Expr) (qspan : Span)
  | tryBlock (body : List Stmt)
  | tuple (elems : List Expr)
  | unary (op : String) (e : Expr)
  | unsafe_ (body : List Stmt)
  | verbatim (ts : List TT)
  | while_ (label : String) (cond : Expr) (body : List Stmt)
  | yield_ (value : Option Expr)
  | hooked (hk : HookData) (arg src : Expr)

/-- `syn::Stmt`.  `localInit` is a `let` with initializer (and optional `else`),
`localDecl` one without.
For /repo/hooq-macros/src/impls/walker/mod.rs:112-161. -/
inductive Stmt
  | localInit (attrs : List Attr) (pat : String) (e : Expr) (diverge : Option Expr)
  | localDecl (attrs : List Attr) (pat : String)
  | item (i : Item)
  | expr (e : Expr) (semi : Bool)
  | mac (attrs : List Attr) (m : Mac) (semi : Bool)

/-- `syn::Arm`.
For /repo/hooq-macros/src/impls/walker/mod.rs:806. -/
inductive Arm
  | mk (attrs : List Attr) (pat : String) (guard : Option Expr) (body : Expr)

/-- `syn::FieldValue`.
For /repo/hooq-macros/src/impls/walker/mod.rs:898. -/
inductive FieldVal
  | mk (attrs : List Attr) (member : String) (e : Expr)

/-- A macro invocation: path with delimiter, and body.
For /repo/hooq-macros/src/impls/walker/walk_macro.rs:12-34. -/
inductive Mac
  | mk (path : Path) (delim : Delim) (body : MacBody)

/-- Macro body: `raw` if it does not parse as a list of evaluables, else the list
(/repo/hooq-macros/src/impls/walker/walk_macro.rs:36-43). -/
inductive MacBody
  | raw (ts : List TT)
  | parsed (evs : List Ev)

/-- Element of a parsed macro body,
/repo/hooq-macros/src/impls/walker/walk_macro.rs:88-94. -/
inductive Ev
  | file (attrs : List Attr) (items : List Item) (sep : Sep)
  | item (i : Item) (sep : Sep)
  | expr (e : Expr) (sep : Sep)
  | stmt (s : Stmt) (sep : Sep)

/-- `syn::Item`.  `macroRules` is an `Item::Macro` with a name, `other` any variant
that the walker does not touch.
For /repo/hooq-macros/src/impls/walker/mod.rs:163-394. -/
inductive Item
  | fn (attrs : List Attr) (sig : Sig) (body : List Stmt)
  | impl_ (attrs : List Attr) (head : String) (items : List ImplItem)
  | mod_ (attrs : List Attr) (name : String) (items : List Item)
  | const_ (attrs : List Attr) (head : String) (e : Expr)
  | static_ (attrs : List Attr) (head : String) (e : Expr)
  | trait_ (attrs : List Attr) (head : String) (items : List TraitItem)
  | mac (attrs : List Attr) (m : Mac)
  | macroRules (attrs : List Attr) (name : String) (m : Mac)
  | other (attrs : List Attr) (text : String)

/-- `syn::ImplItem`.
For /repo/hooq-macros/src/impls/walker/mod.rs:206-253. -/
inductive ImplItem
  | fn (attrs : List Attr) (sig : Sig) (body : List Stmt)
  | const_ (attrs : List Attr) (head : String) (e : Expr)
  | mac (attrs : List Attr) (m : Mac)
  | other (attrs : List Attr) (text : String)

/-- `syn::TraitItem`; `const_`/`fn` have a default value/body, the ones without are
`other`.
For /repo/hooq-macros/src/impls/walker/mod.rs:299-355. -/
inductive TraitItem
  | const_ (attrs : List Attr) (head : String) (e : Expr)
  | fn (attrs : List Attr) (sig : Sig) (body : List Stmt)
  | mac (attrs : List Attr) (m : Mac)
  | other (attrs : List Attr) (text : String)

end

/-- Attributes of an expression node.
For /repo/hooq-macros/src/impls/utils/get_attrs.rs:9-52. -/
def Expr.attrs : Expr → List Attr
  | .mk a _ _ => a

/-- Variant of an expression node.
For /repo/hooq-macros/src/impls/walker/mod.rs:396-1047. -/
def Expr.kind : Expr → ExprKind
  | .mk _ _ k => k

/-- The node with its attributes replaced.
For /repo/hooq-macros/src/impls/utils/get_attrs.rs:9-52. -/
def Expr.setAttrs (e : Expr) (a : List Attr) : Expr :=
  match e with
  | .mk _ sp k => .mk a sp k

end Hooq
