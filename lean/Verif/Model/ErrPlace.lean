import Verif.Model.Metas

/-!
# Where an error about an attribute is shown

Every `syn::Error` carries a position.  The tokens of an attribute are given as in `Metas`, the
error as in `Attr`; the definitions here say where `syn` and
/repo/hooq-macros/src/impls/inert_attr/parse.rs put it.  Only the beginning of the marked text is
modelled.
-/

namespace Hooq

/-- Where an error is shown: at a token, or at `#[hooq]` itself (`Span::call_site()`), where
`syn::parse2`, /repo/hooq-macros/src/impls/inert_attr/parse.rs:205, reports the end of its input. -/
inductive ErrPlace
  | token (sp : Span)
  | root
deriving DecidableEq, Repr

/-- What `syn` says about an expression: where it begins, and where an error in it is.  Both
are parameters, as the expression parser is not modelled; see `MetaNameValue::parse`, used in
/repo/hooq-macros/src/impls/inert_attr/parse.rs:337-338. -/
structure ErrReader where
  value : List TT → Option (Value × List TT)
  start : List TT → Span
  fault : List TT → ErrPlace

/-- `ParseBuffer::error` (library), e.g. in `LitStr::parse` used in
/repo/hooq-macros/src/impls/inert_attr/parse.rs:45: the next token, which may be a group
without delimiters, or the end. -/
def cursorPlace : List TT → ErrPlace
  | [] => .root
  | t :: _ => .token t.span

/-- The token that `syn::parse2` does not expect behind what it has read
(`span_of_unexpected_ignoring_nones`), used in
/repo/hooq-macros/src/impls/inert_attr/parse.rs:300: the next one that is not a group without
delimiters. -/
def leftPlace (ts : List TT) : ErrPlace :=
  match enteredAll ts with
  | some (t :: _) => .token t.span
  | _ => .root

/-- What is left where `Strings::parse`, /repo/hooq-macros/src/impls/inert_attr/parse.rs:41-51,
fails.  Each round reads at least one token, so that the number of tokens is enough fuel. -/
def stringsRest : Nat → List TT → List TT
  | 0, ts => ts
  | fuel + 1, ts =>
    match enteredAll ts with
    | some (.lit (.str _) _ :: r) =>
      match enteredAll r with
      | some (.punct ',' _ :: r') => stringsRest fuel r'
      | _ => r
    | _ => ts

/-- The error of `syn::parse2::<Strings>`,
/repo/hooq-macros/src/impls/inert_attr/parse.rs:205, 231, 263 and 287. -/
def stringsPlace (ts : List TT) : ErrPlace := cursorPlace (stringsRest (openedAll ts).length ts)

/-- The error of `syn::parse2::<LitBool>`,
/repo/hooq-macros/src/impls/inert_attr/parse.rs:300. -/
def boolPlace (ts : List TT) : ErrPlace :=
  match enteredAll ts with
  | some (.ident s _ :: r) => if s = "true" ∨ s = "false" then leftPlace r else cursorPlace ts
  | _ => cursorPlace ts

/-- What is left where `Path::parse_mod_style` (library, see `modLoop`) fails, used by
/repo/hooq-macros/src/impls/inert_attr/parse.rs:337-338. -/
def modRest : Nat → List TT → List TT
  | 0, ts => ts
  | fuel + 1, ts =>
    match enteredAll ts with
    | some (.ident x _ :: r) =>
      if isModSegment x then
        match colons r with
        | some r' => modRest fuel r'
        | none => r
      else ts
    | _ => ts

/-- The same with the optional `::` in front, used by
/repo/hooq-macros/src/impls/inert_attr/parse.rs:337-338. -/
def pathRest (ts : List TT) : List TT :=
  match colons ts with
  | some r => modRest (openedAll r).length r
  | none => modRest (openedAll ts).length ts

/-- The error of `syn::parse2::<MetaNameValue>`,
/repo/hooq-macros/src/impls/inert_attr/parse.rs:337-338. -/
def nameValuePlace (R : ErrReader) (ts : List TT) : ErrPlace :=
  match metaPath ts with
  | none => cursorPlace (pathRest ts)
  | some (_, r) =>
    match enteredAll r with
    | some (.punct '=' _ :: r') =>
      match R.value r' with
      | none => R.fault r'
      | some (_, rest) => leftPlace rest
    | _ => cursorPlace r

/-- The text behind the path of an attribute: the arguments in parentheses, see `metaOne`;
`tokens` in /repo/hooq-macros/src/impls/inert_attr/parse.rs:204. -/
def argsOf (ts : List TT) : List TT :=
  match metaPath ts with
  | some (_, .group _ g _ :: _) => g
  | _ => []

/-- The text behind `=`, see `metaOne`; `value` in
/repo/hooq-macros/src/impls/inert_attr/parse.rs:164. -/
def valueOf (ts : List TT) : List TT :=
  match metaPath ts with
  | some (_, r) =>
    match enteredAll r with
    | some (.punct '=' _ :: r') => r'
    | _ => []
  | none => []

/-- Where the error about an attribute is shown, /repo/hooq-macros/src/impls/inert_attr/parse.rs:
the path (lines 30, 118, 120, 212, 277, 363 and 370), the value (lines 100, 106 and 107),
the arguments (lines 205, 231, 263, 287, 300 and 338), or the name of a binding (line 341). -/
def attrPlace (R : ErrReader) (ts : List TT) : Err → ErrPlace
  | .flavorPath _ | .flavorValue _ => .token (R.start (valueOf ts))
  | .stringsParse => stringsPlace (argsOf ts)
  | .boolParse => boolPlace (argsOf ts)
  | .bindingParse => nameValuePlace R (argsOf ts)
  | .bindingName => leftPlace (argsOf ts)
  | _ => leftPlace ts

end Hooq
