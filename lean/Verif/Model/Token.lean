/-!
# Tokens, paths, attribute values

Data types shared by the whole model.  They stand for the `proc_macro2` and `syn`
types that `/repo/hooq-macros/src/impls` manipulates.
-/

namespace Hooq

/-- Source position of a token (`proc_macro2::Span`).  Only the start position is
kept, which is all that `line()`, `column()` and `file()` report
(/repo/hooq-macros/src/impls/method/render/mod.rs:14-19, 222-247). -/
structure Span where
  file : String
  line : Nat
  col : Nat
deriving DecidableEq, Repr, Inhabited

/-- `Span::call_site()`: the span of tokens made by `parse_quote!` and
`Group::new`.  Its position is never read by the code.
For /repo/hooq-macros/src/impls/method/render/mod.rs:22-87. -/
def Span.callSite : Span := ⟨"", 0, 0⟩

/-- A path segment: its identifier and whether it has generic arguments.
For /repo/hooq-macros/src/impls/inert_attr/parse.rs:16-37. -/
structure Seg where
  ident : String
  hasArgs : Bool := false
deriving DecidableEq, Repr, Inhabited

/-- `syn::Path`: leading `::` and segments.
For /repo/hooq-macros/src/impls/inert_attr/parse.rs:16-37. -/
structure Path where
  leading : Bool := false
  segs : List Seg
deriving DecidableEq, Repr, Inhabited

/-- Plain path from identifiers, as written by `parse_quote!(a::b)`.
For /repo/hooq-macros/src/impls/flavor/mod.rs:52-71. -/
def Path.ofIdents (l : List String) : Path := { leading := false, segs := l.map fun s => { ident := s } }

/-- `path_is_end_of`, /repo/hooq-macros/src/impls/utils/mod.rs:13-18. -/
def Path.isEndOf (p : Path) (target : String) : Bool :=
  match p.segs.getLast? with
  | some s => s.ident == target
  | none => false

/-- What the code inspects of an attribute value or binding value (`syn::Expr`):
whether it is a path, a string literal, or something else
(/repo/hooq-macros/src/impls/inert_attr/parse.rs:96-114). -/
inductive ValueView
  | path (p : Path)
  | litStr (s : String)
  | other
deriving DecidableEq, Repr, Inhabited

/-- An attribute or binding value.  `text` is its printed form
(`to_token_stream().to_string()`); two values are the same expression when view
and text agree.  Simplification: the tokens themselves are not kept; they are
spliced as one hole token.
For /repo/hooq-macros/src/impls/inert_attr/parse.rs:123-393,
/repo/hooq-macros/src/impls/method/render/mod.rs:186-211. -/
structure Value where
  view : ValueView
  text : String
deriving DecidableEq, Repr, Inhabited

/-- Delimiters of a token group.
For /repo/hooq-macros/src/impls/method/render/mod.rs:22-87. -/
inductive Delim
  | paren | brace | bracket | none
deriving DecidableEq, Repr, Inhabited

/-- Literals.  `usize` is what `quote!` makes from a `usize` value (`12usize`).
For /repo/hooq-macros/src/impls/method/render/mod.rs:22-87. -/
inductive Lit
  | str (s : String)
  | int (n : Nat)
  | usize (n : Nat)
  | other (text : String)
deriving DecidableEq, Repr, Inhabited

/-- The three kinds of hook targets,
/repo/hooq-macros/src/impls/inert_attr/context.rs:15-20. -/
inductive Kind
  | question | ret | tail
deriving DecidableEq, Repr, Inhabited

/-- The fields of the `::hooq::HooqMeta { .. }` literal that `$hooq_meta` expands to
(/repo/hooq-macros/src/impls/method/render/mod.rs:297-317).  `source_str` is the
printed source of the target and is left implicit. -/
structure MetaRec where
  line : Nat
  col : Nat
  path : String
  file : String
  count : String
  bindings : List (String × Value)
deriving DecidableEq, Repr, Inhabited

/-- Token trees (`proc_macro2::TokenTree`), extended with hole tokens for spliced
material: `exprHole` for `$expr`, `sourceHole` for `$source`, `valueHole` for a
binding value, `bindingsHole` for `$bindings`, `metaHole` for `$hooq_meta`.  A hole
stands for the token sequence that the code splices at that place.
For /repo/hooq-macros/src/impls/method/render/mod.rs:22-87. -/
inductive TT
  | ident (s : String) (sp : Span)
  | punct (c : Char) (sp : Span)
  | lit (l : Lit) (sp : Span)
  | group (d : Delim) (ts : List TT) (sp : Span)
  | exprHole (sp : Span)
  | sourceHole (sp : Span)
  | valueHole (v : Value) (sp : Span)
  | bindingsHole (l : List (String × Value)) (sp : Span)
  | metaHole (m : MetaRec) (sp : Span)
deriving Repr, Inhabited

/-- `TokenTree::set_span`.
For /repo/hooq-macros/src/impls/method/render/mod.rs:27-40. -/
def TT.setSpan (sp : Span) : TT → TT
  | .ident s _ => .ident s sp
  | .punct c _ => .punct c sp
  | .lit l _ => .lit l sp
  | .group d ts _ => .group d ts sp
  | .exprHole _ => .exprHole sp
  | .sourceHole _ => .sourceHole sp
  | .valueHole v _ => .valueHole v sp
  | .bindingsHole l _ => .bindingsHole l sp
  | .metaHole m _ => .metaHole m sp

/-- `TokenTree::span`.
For /repo/hooq-macros/src/impls/method/render/mod.rs:27-40. -/
def TT.span : TT → Span
  | .ident _ sp | .punct _ sp | .lit _ sp | .group _ _ sp | .exprHole sp
  | .sourceHole sp | .valueHole _ sp | .bindingsHole _ sp | .metaHole _ sp => sp

/-- Attribute content, `syn::Meta`.
For /repo/hooq-macros/src/impls/inert_attr/parse.rs:123-393. -/
inductive Meta
  | path (p : Path)
  | list (p : Path) (ts : List TT)
  | nv (p : Path) (v : Value)
deriving Repr, Inhabited

/-- An attribute `#[meta]`.  Simplification: the style (`#` or `#!`) is not kept.
For /repo/hooq-macros/src/impls/inert_attr/parse.rs:123-393. -/
abbrev Attr := Meta

/-- Path of an attribute.
For /repo/hooq-macros/src/impls/inert_attr/parse.rs:123-393. -/
def Meta.getPath : Meta → Path
  | .path p | .list p _ | .nv p _ => p

/-! ## Association lists standing for `HashMap<String, _>` -/

/-- Hash maps are association lists; the list order is the iteration order.
For /repo/hooq-macros/src/impls/inert_attr/context.rs:110-127,
/repo/hooq-macros/src/impls/flavor/mod.rs:128-138. -/
abbrev AMap (α : Type) := List (String × α)

namespace AMap
variable {α : Type}

/-- `HashMap::get`.
For /repo/hooq-macros/src/impls/inert_attr/context.rs:110-127. -/
def get? (m : AMap α) (k : String) : Option α :=
  match m with
  | [] => none
  | (k', v) :: m => if k' = k then some v else get? m k

/-- `HashMap::insert`: replaces the value of an existing key, otherwise adds the
key.
For /repo/hooq-macros/src/impls/inert_attr/context.rs:110-127,
/repo/hooq-macros/src/impls/flavor/mod.rs:128-138. -/
def insert (m : AMap α) (k : String) (v : α) : AMap α :=
  match m with
  | [] => [(k, v)]
  | (k', v') :: m => if k' = k then (k, v) :: m else (k', v') :: insert m k v

/-- `HashMap::extend`.
For /repo/hooq-macros/src/impls/flavor/toml_load/apply.rs:147. -/
def extend (m : AMap α) : List (String × α) → AMap α
  | [] => m
  | (k, v) :: l => extend (m.insert k v) l

/-- Keys of a map.
For /repo/hooq-macros/src/impls/inert_attr/context.rs:110-127. -/
def keys (m : AMap α) : List String := m.map Prod.fst

end AMap

end Hooq
