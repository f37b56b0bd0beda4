import Verif.Model.Walker

/-!
# Generic view of syntax trees

All syntax nodes are mapped to one kind of rose tree.  A node carries its
attributes, what kind of target it is, how it hangs below its parent (`Edge`), and
the hook the macro put on it.  Positions in an item are paths in this tree.
-/

namespace Hooq

/-- Function-like construct entered along an edge. -/
inductive FnEntry
  | fn (sig : Sig)
  | closure (sig : CSig)
deriving DecidableEq, Repr, Inhabited

/-- How a node hangs below its parent: `scope` if the edge enters the block of a
fn/closure/if/else/loop/for/while/match arm/async/unsafe/const/try, `fn` if it
enters a function or closure, `tail` if the node is a trailing expression, and
`visit = false` for the left side of an assignment, which the walker leaves out. -/
structure Edge where
  visit : Bool := true
  scope : Bool := false
  fn : Option FnEntry := none
  tail : Option TailKind := none
deriving DecidableEq, Repr, Inhabited

/-- What a node is, as far as hooking is concerned.  `question` carries the span of
the `?` and whether the `?` was consumed. -/
inductive Tag
  | question (q : Span) (consumed : Bool)
  | ret
  | call
  | path (p : Path)
  | mac
  | other (label : String)
deriving DecidableEq, Repr, Inhabited

/-- What happens to the attributes of a node: `handled` always, `tailOnly` only when
the node is a trailing expression, `untouched` never, `dropped` all attributes
vanish. -/
inductive AttrMode
  | handled | tailOnly | untouched | dropped
deriving DecidableEq, Repr, Inhabited

/-- How a node ends: closed, with its last child (not parsable further if there is
none), or not parsable further. -/
inductive RearRule
  | closed | last | stuck
deriving DecidableEq, Repr, Inhabited

/-- Contents of a node.  `leftmost` says that the first token of the node is the
first token of its first child. -/
structure Data where
  edge : Edge
  tag : Tag
  mode : AttrMode
  attrs : List Attr
  span : Span
  leftmost : Bool
  rear : RearRule := .closed
deriving Repr, Inhabited

/-- Rose trees.  A mark is a hook put on the node together with the source text
(as a tree) that `$source` refers to. -/
inductive RTree
  | mk (d : Data) (marks : List (HookData × RTree)) (kids : List RTree)

namespace RTree

/-- Contents of the root. -/
def data : RTree → Data
  | .mk d _ _ => d
/-- Hooks on the root. -/
def marks : RTree → List (HookData × RTree)
  | .mk _ m _ => m
/-- Children of the root. -/
def kids : RTree → List RTree
  | .mk _ _ k => k

/-- Put a hook on the root. -/
def addMark (m : HookData × RTree) : RTree → RTree
  | .mk d ms ks => .mk d (ms ++ [m]) ks

/-- The subtree at a position (list of child indices). -/
def sub : RTree → List Nat → Option RTree
  | t, [] => some t
  | .mk _ _ ks, i :: p => match ks[i]? with
    | some k => k.sub p
    | none => none

end RTree

/-- A node with its attribute mode `handled`. -/
def hnode (ed : Edge) (tag : Tag) (attrs : List Attr) (sp : Span) (leftmost : Bool)
    (kids : List RTree) (rear : RearRule := .closed) : RTree :=
  .mk { edge := ed, tag := tag, mode := .handled, attrs := attrs, span := sp,
        leftmost := leftmost, rear := rear } [] kids

/-- A node with another attribute mode. -/
def onode (mode : AttrMode) (ed : Edge) (tag : Tag) (attrs : List Attr) (sp : Span)
    (kids : List RTree) : RTree :=
  .mk { edge := ed, tag := tag, mode := mode, attrs := attrs, span := sp,
        leftmost := false } [] kids

/-- Edge into a statement list. -/
def scopeEdge : Edge := { scope := true }

mutual

/-- View of an expression below edge `ed`. -/
def viewE (ed : Edge) : Expr → RTree
  | .mk attrs sp k => viewK ed attrs sp k

/-- View of an expression given by its parts. -/
def viewK (ed : Edge) (attrs : List Attr) (sp : Span) : ExprKind → RTree
  | .array es => hnode ed (.other "array") attrs sp false (viewEs es)
  | .assign l r =>
    hnode ed (.other "assign") attrs sp true [viewE { visit := false } l, viewE {} r]
      .last
  | .async b => hnode ed (.other "async") attrs sp false (viewStmts scopeEdge .blockTail b)
  | .await e => hnode ed (.other "await") attrs sp true [viewE {} e]
  | .binary l _ r => hnode ed (.other "binary") attrs sp true [viewE {} l, viewE {} r] .last
  | .block _ b => hnode ed (.other "block") attrs sp false (viewStmts scopeEdge .blockTail b)
  | .break_ _ v => hnode ed (.other "break") attrs sp false (viewO {} v) .last
  | .call f args => hnode ed .call attrs sp true (viewE {} f :: viewEs args)
  | .cast e _ => hnode ed (.other "cast") attrs sp true [viewE {} e] .stuck
  | .closure sig body =>
    hnode ed (.other "closure") attrs sp false [viewClosureBody { fn := some (.closure sig) } body]
      (if sig.output = .none then .last else .closed)
  | .const_ b => hnode ed (.other "const") attrs sp false (viewStmts scopeEdge .blockTail b)
  | .continue_ _ => onode .tailOnly ed (.other "continue") attrs sp []
  | .field e _ => hnode ed (.other "field") attrs sp true [viewE {} e]
  | .forLoop _ e b =>
    hnode ed (.other "for") attrs sp false (viewE {} e :: viewStmts scopeEdge .blockTail b)
  | .group e => hnode ed (.other "group") attrs sp false [viewE {} e]
  | .if_ c t e =>
    hnode ed (.other "if") attrs sp false
      (viewE {} c :: (viewStmts scopeEdge .blockTail t ++ viewO scopeEdge e))
  | .index e i => hnode ed (.other "index") attrs sp true [viewE {} e, viewE {} i]
  | .infer => onode .tailOnly ed (.other "infer") attrs sp []
  | .let_ _ e => hnode ed (.other "let-cond") attrs sp false [viewE {} e] .last
  | .lit _ => onode .tailOnly ed (.other "lit") attrs sp []
  | .loop _ b => hnode ed (.other "loop") attrs sp false (viewStmts scopeEdge .blockTail b)
  | .mac m => hnode ed .mac attrs sp false (viewMac m)
  | .match_ e arms => hnode ed (.other "match") attrs sp false (viewE {} e :: viewArms arms)
  | .methodCall r _ args =>
    hnode ed (.other "method-call") attrs sp true (viewE {} r :: viewEs args)
  | .paren e => hnode ed (.other "paren") attrs sp false [viewE {} e]
  | .path p => onode .tailOnly ed (.path p) attrs sp []
  | .range s _ t =>
    hnode ed (.other "range") attrs sp s.isSome (viewO {} s ++ viewO {} t)
      (if t.isSome then .last else .stuck)
  | .rawAddr e => hnode ed (.other "raw-addr") attrs sp false [viewE {} e] .last
  | .reference e => hnode ed (.other "reference") attrs sp false [viewE {} e] .last
  | .repeat_ e n => hnode ed (.other "repeat") attrs sp false [viewE {} e, viewE {} n]
  | .ret v => hnode ed .ret attrs sp false (viewO {} v) .last
  | .struct_ _ fs r => hnode ed (.other "struct") attrs sp false (viewFields fs ++ viewO {} r)
  | .try_ e q => hnode ed (.question q false) attrs q true [viewE {} e]
  | .tryBlock b => hnode ed (.other "try") attrs sp false (viewStmts scopeEdge .blockTail b)
  | .tuple es => hnode ed (.other "tuple") attrs sp false (viewEs es)
  | .unary _ e => hnode ed (.other "unary") attrs sp false [viewE {} e] .last
  | .unsafe_ b => hnode ed (.other "unsafe") attrs sp false (viewStmts scopeEdge .blockTail b)
  | .verbatim _ => onode .untouched ed (.other "verbatim") attrs sp []
  | .while_ _ c b =>
    hnode ed (.other "while") attrs sp false (viewE {} c :: viewStmts scopeEdge .blockTail b)
  | .yield_ v => hnode ed (.other "yield") attrs sp false (viewO {} v) .last
  | .hooked hk arg src =>
    if hk.kind = .question ∧ hk.exc then
      hnode ed (.question hk.span true) [] hk.span true
        [(viewE {} arg).addMark (hk, viewE {} src)]
    else (viewE ed arg).addMark (hk, viewE {} src)

/-- View of a closure body. -/
def viewClosureBody (ed : Edge) : Expr → RTree
  | .mk attrs sp k =>
    if k.isBlock then viewClosureBlock ed attrs sp k
    else viewK { ed with tail := some .fnTail } attrs sp k

/-- View of a closure body that is a block. -/
def viewClosureBlock (ed : Edge) (attrs : List Attr) (sp : Span) : ExprKind → RTree
  | .block _ b => hnode ed (.other "block") attrs sp false (viewStmts scopeEdge .fnTail b)
  | _ => onode .untouched ed (.other "") attrs sp []

/-- View of a list of expressions. -/
def viewEs : List Expr → List RTree
  | [] => []
  | e :: es => viewE {} e :: viewEs es

/-- View of an optional expression. -/
def viewO (ed : Edge) : Option Expr → List RTree
  | none => []
  | some e => [viewE ed e]

/-- View of struct fields. -/
def viewFields : List FieldVal → List RTree
  | [] => []
  | f :: fs => viewField f :: viewFields fs

/-- View of a struct field. -/
def viewField : FieldVal → RTree
  | .mk attrs _ e => hnode {} (.other "field-value") attrs .callSite false [viewE {} e]

/-- View of match arms. -/
def viewArms : List Arm → List RTree
  | [] => []
  | a :: rest => viewArm a :: viewArms rest

/-- View of a match arm: the arm is a scope, its attributes are never looked at. -/
def viewArm : Arm → RTree
  | .mk attrs _ g body =>
    onode .untouched scopeEdge (.other "arm") attrs .callSite (viewO {} g ++ [viewArmBody body])

/-- View of the body of a match arm. -/
def viewArmBody : Expr → RTree
  | .mk attrs sp k =>
    if k.isBlock then viewK {} attrs sp k
    else viewK { tail := some .blockTail } attrs sp k

/-- View of the statements of a block entered by `ed`; the last one is in tail
position. -/
def viewStmts (ed : Edge) (tk : TailKind) : List Stmt → List RTree
  | [] => []
  | s :: rest => viewStmt ed (if rest.isEmpty then some tk else none) s :: viewStmts ed tk rest

/-- View of a statement. -/
def viewStmt (ed : Edge) (tk : Option TailKind) : Stmt → RTree
  | .localInit attrs _ e dv =>
    hnode ed (.other "let") attrs .callSite false (viewE {} e :: viewO {} dv)
  | .localDecl attrs _ => onode .untouched ed (.other "let") attrs .callSite []
  | .item i => viewItem ed i
  | .expr e semi => viewE { ed with tail := if semi then none else tk } e
  | .mac attrs m _ => hnode ed .mac attrs .callSite false (viewMac m)

/-- View of the body of a macro. -/
def viewMac : Mac → List RTree
  | .mk _ _ b => viewMacBody b

/-- View of a macro body. -/
def viewMacBody : MacBody → List RTree
  | .raw _ => []
  | .parsed evs => viewEvs evs

/-- View of the elements of a macro body. -/
def viewEvs : List Ev → List RTree
  | [] => []
  | v :: vs => viewEv v :: viewEvs vs

/-- View of an element of a macro body. -/
def viewEv : Ev → RTree
  | .file attrs items _ => onode .dropped {} (.other "file") attrs .callSite (viewItems items)
  | .item i _ => viewItem {} i
  | .expr e _ => viewE {} e
  | .stmt s _ => viewStmt {} none s

/-- View of an item. -/
def viewItem (ed : Edge) : Item → RTree
  | .fn attrs sig body =>
    hnode ed (.other "fn") attrs .callSite false
      (viewStmts { scope := true, fn := some (.fn sig) } .fnTail body)
  | .impl_ attrs _ items => hnode ed (.other "impl") attrs .callSite false (viewImplItems items)
  | .mod_ attrs _ items => hnode ed (.other "mod") attrs .callSite false (viewItems items)
  | .const_ attrs _ e => hnode ed (.other "const-item") attrs .callSite false [viewE {} e]
  | .static_ attrs _ e => hnode ed (.other "static-item") attrs .callSite false [viewE {} e]
  | .trait_ attrs _ items => hnode ed (.other "trait") attrs .callSite false (viewTraitItems items)
  | .mac attrs m => hnode ed .mac attrs .callSite false (viewMac m)
  | .macroRules attrs _ _ => onode .untouched ed (.other "macro_rules") attrs .callSite []
  | .other attrs _ => onode .untouched ed (.other "other-item") attrs .callSite []

/-- View of items. -/
def viewItems : List Item → List RTree
  | [] => []
  | i :: is => viewItem {} i :: viewItems is

/-- View of impl items. -/
def viewImplItems : List ImplItem → List RTree
  | [] => []
  | i :: is => viewImplItem i :: viewImplItems is

/-- View of an impl item. -/
def viewImplItem : ImplItem → RTree
  | .fn attrs sig body =>
    hnode {} (.other "fn") attrs .callSite false
      (viewStmts { scope := true, fn := some (.fn sig) } .fnTail body)
  | .const_ attrs _ e => hnode {} (.other "const-item") attrs .callSite false [viewE {} e]
  | .mac attrs m => hnode {} .mac attrs .callSite false (viewMac m)
  | .other attrs _ => onode .untouched {} (.other "other-item") attrs .callSite []

/-- View of trait items. -/
def viewTraitItems : List TraitItem → List RTree
  | [] => []
  | i :: is => viewTraitItem i :: viewTraitItems is

/-- View of a trait item. -/
def viewTraitItem : TraitItem → RTree
  | .const_ attrs _ e => hnode {} (.other "const-item") attrs .callSite false [viewE {} e]
  | .fn attrs sig body =>
    hnode {} (.other "fn") attrs .callSite false
      (viewStmts { scope := true, fn := some (.fn sig) } .fnTail body)
  | .mac attrs m => hnode {} .mac attrs .callSite false (viewMac m)
  | .other attrs _ => onode .untouched {} (.other "other-item") attrs .callSite []

end

/-- Hooks of tail expressions on a node. -/
def RTree.tailMarks (t : RTree) : List (HookData × RTree) := t.marks.filter fun m => m.1.kind == .tail

/-- A node without the hooks on it. -/
def RTree.bare (t : RTree) : RTree := .mk t.data [] t.kids

end Hooq
