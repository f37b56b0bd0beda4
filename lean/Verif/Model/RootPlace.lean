import Verif.Model.ErrPlace

/-!
# Where an error about the arguments of `#[hooq(..)]` is shown

/repo/hooq-macros/src/impls/root_attr/parse.rs and root_attr/mod.rs.  As in `ErrPlace`, only the
beginning of the marked text is modelled.
-/

namespace Hooq

/-- What `syn` says about the arguments: values as in `ErrReader`, and where an error in the
paths of `trait_use(..)` is (`syn::parse2::<Paths>`,
/repo/hooq-macros/src/impls/root_attr/parse.rs:79), a parameter as the parser of paths with
generic arguments is not modelled. -/
structure ArgReader extends ErrReader where
  pathsFault : List TT → ErrPlace

/-- The error of `Meta::parse`, used in /repo/hooq-macros/src/impls/root_attr/parse.rs:18. -/
def metaPlace (R : ErrReader) (ts : List TT) : ErrPlace :=
  match metaPath ts with
  | none => cursorPlace (pathRest ts)
  | some (_, r) =>
    match enteredAll r with
    | some (.punct '=' _ :: r') => R.fault r'
    | _ => cursorPlace r

/-- The error of `input.parse_terminated(Meta::parse, Token![,])`,
/repo/hooq-macros/src/impls/root_attr/parse.rs:18.  Each round reads at least one token, so that
the number of tokens is enough fuel. -/
def metasPlaceFuel (R : ErrReader) : Nat → List TT → ErrPlace
  | 0, ts => metaPlace R ts
  | fuel + 1, ts =>
    match metaOne R.value ts with
    | none => metaPlace R ts
    | some (_, r) =>
      match enteredAll r with
      | some (.punct ',' _ :: r') => metasPlaceFuel R fuel r'
      | _ => cursorPlace r

/-- The same without fuel, /repo/hooq-macros/src/impls/root_attr/parse.rs:18. -/
def metasPlace (R : ErrReader) (ts : List TT) : ErrPlace := metasPlaceFuel R (openedAll ts).length ts

/-- What `terminated`, /repo/hooq-macros/src/impls/root_attr/parse.rs:18, reads, each with the text
that begins with it. -/
def terminatedAt {α : Type} (one : List TT → Option (α × List TT)) : Nat → List TT → List (α × List TT)
  | 0, _ => []
  | fuel + 1, ts =>
    match one ts with
    | none => []
    | some (a, r) =>
      (a, ts) :: match enteredAll r with
        | some (.punct ',' _ :: r') => terminatedAt one fuel r'
        | _ => []

/-- Where the error about one argument is shown: the beginning of the argument
(/repo/hooq-macros/src/impls/root_attr/parse.rs:57-58, 94 and 118-121), the string (lines 109-114) or
the paths (line 79). -/
def argPlace (R : ArgReader) (ts : List TT) : Meta → Err → ErrPlace
  | .nv _ _, .flavorPath _ => leftPlace (valueOf ts)
  | .list _ g, .pathsParse => R.pathsFault g
  | _, _ => leftPlace ts

/-- The loop of `RootAttribute::parse`, /repo/hooq-macros/src/impls/root_attr/parse.rs:18-24, with the
places of errors. -/
def rootLoop (R : ArgReader) (env : Env) (r : RootAttr) : List (Meta × List TT) → Except (Err × ErrPlace) RootAttr
  | [] => .ok r
  | (m, ts) :: l =>
    match rootStep env r m with
    | .ok r => rootLoop R env r l
    | .error e => .error (e, argPlace R ts m e)

/-- `syn::parse2::<RootAttribute>` and `RootContext::load`, /repo/hooq-macros/src/impls/mod.rs:15-16, with
the places of errors.  What `load` reports (/repo/hooq-macros/src/impls/root_attr/mod.rs:61, 65 and 80) is
shown at the span of the input before anything is read
(/repo/hooq-macros/src/impls/root_attr/parse.rs:14). -/
def rootPlaced (R : ArgReader) (env : Env) (ts : List TT) : Except (EntryErr × ErrPlace) Settings :=
  match parseMetas R.value ts with
  | none => .error (.argSyntax, metasPlace R.toErrReader ts)
  | some _ =>
    match rootLoop R env {} (terminatedAt (metaOne R.value) (openedAll ts).length ts) with
    | .error (e, p) => .error (.expansion e, p)
    | .ok r =>
      match rootLoad env r with
      | .error e => .error (.expansion e, cursorPlace ts)
      | .ok s => .ok s

end Hooq
