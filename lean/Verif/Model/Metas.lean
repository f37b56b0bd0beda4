import Verif.Model.Entry

/-!
# Attributes and the arguments of `#[hooq(..)]` as tokens

What `input.parse_terminated(Meta::parse, Token![,])`,
/repo/hooq-macros/src/impls/root_attr/parse.rs:18, does with the tokens: `syn` 2.0.117
(/repo/Cargo.lock:1389-1392), `attr.rs` and `path.rs`.  Reading the value behind `=` is left
to a parameter.  Each token is looked for behind the beginnings of groups without delimiters
(`enteredAll`).  Simplification: `::` is two tokens `:`, whether or not they are joint.
-/

namespace Hooq

/-- The words that `syn::Ident` does not accept (`accept_as_ident`), used by
`Meta::parse` in /repo/hooq-macros/src/impls/root_attr/parse.rs:18. -/
def keywords : List String :=
  ["_", "abstract", "as", "async", "await", "become", "box", "break", "const", "continue", "crate", "do", "dyn",
   "else", "enum", "extern", "false", "final", "fn", "for", "if", "impl", "in", "let", "loop", "macro", "match",
   "mod", "move", "mut", "override", "priv", "pub", "ref", "return", "Self", "self", "static", "struct", "super",
   "trait", "true", "try", "type", "typeof", "unsafe", "unsized", "use", "virtual", "where", "while", "yield"]

/-- The test for a segment in `Path::parse_mod_style`, used by `Meta::parse` in
/repo/hooq-macros/src/impls/root_attr/parse.rs:18. -/
def isModSegment (x : String) : Bool :=
  !keywords.contains x || x == "super" || x == "self" || x == "Self" || x == "crate"

/-- `Token![::]` at the beginning, in `Path::parse_mod_style`, used by `Meta::parse` in
/repo/hooq-macros/src/impls/root_attr/parse.rs:18. -/
def colons (ts : List TT) : Option (List TT) :=
  match enteredAll ts with
  | some (.punct ':' _ :: r) =>
    match enteredAll r with
    | some (.punct ':' _ :: r') => some r'
    | _ => none
  | _ => none

/-- The loop of `Path::parse_mod_style`, used by `Meta::parse` in
/repo/hooq-macros/src/impls/root_attr/parse.rs:18.  Each round reads at least one token, so that
the number of tokens is enough fuel. -/
def modLoop : Nat → List TT → Option (List String × List TT)
  | 0, _ => none
  | fuel + 1, ts =>
    match enteredAll ts with
    | some (.ident x _ :: r) =>
      if isModSegment x then
        match colons r with
        | some r' => (modLoop fuel r').map fun p => (x :: p.1, p.2)
        | none => some ([x], r)
      else none
    | _ => none

/-- The segments of a path, `Path::parse_mod_style`, used by `Meta::parse` in
/repo/hooq-macros/src/impls/root_attr/parse.rs:18. -/
def modSegments (ts : List TT) : Option (List String × List TT) := modLoop (openedAll ts).length ts

/-- `parse_outermost_meta_path`, used by `Meta::parse` in
/repo/hooq-macros/src/impls/root_attr/parse.rs:18. -/
def metaPath (ts : List TT) : Option (Path × List TT) :=
  match enteredAll ts with
  | some (.ident "unsafe" _ :: r) => some (.ofIdents ["unsafe"], r)
  | _ =>
    match colons ts with
    | some r => (modSegments r).map fun p => ({ Path.ofIdents p.1 with leading := true }, p.2)
    | none => (modSegments ts).map fun p => (.ofIdents p.1, p.2)

/-- `Meta::parse`, used in /repo/hooq-macros/src/impls/root_attr/parse.rs:18.  `value` reads
an expression.  The arguments of a list are looked for in groups without delimiters, but not
taken out of them: `parse_delimiter` reads one token tree. -/
def metaOne (value : List TT → Option (Value × List TT)) (ts : List TT) : Option (Meta × List TT) :=
  match metaPath ts with
  | none => none
  | some (p, r) =>
    match enteredAll r with
    | some (.group _ _ _ :: _) =>
      match r with
      | .group .none _ _ :: _ => none
      | .group _ g _ :: r' => some (.list p g, r')
      | _ => none
    | some (.punct '=' _ :: r') => (value r').map fun v => (.nv p v.1, v.2)
    | _ => some (.path p, r)

/-- `parse_terminated(one, Token![,])` on a whole input, used in
/repo/hooq-macros/src/impls/root_attr/parse.rs:18 and 72 and in
/repo/hooq-macros/src/impls/inert_attr/parse.rs:45.  Each round reads at least one token, so that
the number of tokens is enough fuel. -/
def terminated {α : Type} (one : List TT → Option (α × List TT)) : Nat → List TT → Option (List α)
  | _, [] => some []
  | 0, _ => none
  | fuel + 1, ts =>
    match one ts with
    | none => none
    | some (a, []) => some [a]
    | some (a, r) =>
      match enteredAll r with
      | some (.punct ',' _ :: r') => (terminated one fuel r').map (a :: ·)
      | _ => none

/-- `input.parse_terminated(Meta::parse, Token![,])`,
/repo/hooq-macros/src/impls/root_attr/parse.rs:18. -/
def parseMetas (value : List TT → Option (Value × List TT)) (ts : List TT) : Option (List Meta) :=
  terminated (metaOne value) (openedAll ts).length ts

/-- `syn::parse2::<RootAttribute>`, /repo/hooq-macros/src/impls/mod.rs:15, with
/repo/hooq-macros/src/impls/root_attr/parse.rs:11-32. -/
def readRoot (value : List TT → Option (Value × List TT)) (env : Env) (ts : List TT) : Except EntryErr RootAttr :=
  match parseMetas value ts with
  | none => .error .argSyntax
  | some args => (parseRoot env {} args).mapError .expansion

/-- `syn::parse2::<MetaNameValue>`, /repo/hooq-macros/src/impls/inert_attr/parse.rs:337-338.
Empty groups without delimiters may remain. -/
def nameValue (value : List TT → Option (Value × List TT)) (ts : List TT) : Option (Path × Value) :=
  match metaPath ts with
  | some (p, r) =>
    match enteredAll r with
    | some (.punct '=' _ :: r') =>
      match value r' with
      | some (v, rest) => if (enteredAll rest).isNone then some (p, v) else none
      | none => none
    | _ => none
  | none => none

/-- The tokens between the brackets of an attribute, read by `syn` with the item it stands
on, /repo/hooq-macros/src/lib.rs:20; `attr.meta` in
/repo/hooq-macros/src/impls/inert_attr/parse.rs:161.  Empty groups without delimiters may
remain. -/
def readAttr (value : List TT → Option (Value × List TT)) (ts : List TT) : Option Attr :=
  match metaOne value ts with
  | some (m, rest) => if (enteredAll rest).isNone then some m else none
  | none => none

/-- `readAttr` on the attributes of a node.
For /repo/hooq-macros/src/impls/inert_attr/parse.rs:123-393. -/
def readAttrs (value : List TT → Option (Value × List TT)) : List (List TT) → Option (List Attr)
  | [] => some []
  | ts :: l =>
    match readAttr value ts, readAttrs value l with
    | some a, some as => some (a :: as)
    | _, _ => none

end Hooq
