import Verif.Model.Root

/-!
# The attribute macro as the compiler calls it

/repo/hooq-macros/src/lib.rs:14-24.
-/

namespace Hooq

/-- Why the compiler gets a `compile_error!`: the item is not an item
(`parse_macro_input!`, /repo/hooq-macros/src/lib.rs:19), the arguments are not a list of
metas (`parse_terminated`, /repo/hooq-macros/src/impls/root_attr/parse.rs:18), or
`hooq_impls` reports an error. -/
inductive EntryErr
  | itemSyntax
  | argSyntax
  | expansion (e : Err)
deriving DecidableEq, Repr, Inhabited

/-- What the compiler gets.  `code uses item` are the lines `#[allow(unused)] use P as _;`
and the item behind them (`quote!`, /repo/hooq-macros/src/impls/mod.rs:23-27, with
`trait_uses_token_stream`, root_attr/mod.rs:30-35); `compileError` is
`syn::Error::into_compile_error`, /repo/hooq-macros/src/lib.rs:22. -/
inductive Outcome
  | code (uses : List Path) (item : Item)
  | compileError (e : EntryErr)
  | panicked
deriving Inhabited

/-- The parsers of `syn` (library) that the entry calls: `syn::Item`, and
`parse_terminated(Meta::parse, Token![,])`.
For /repo/hooq-macros/src/lib.rs:18-24, /repo/hooq-macros/src/impls/root_attr/parse.rs:17. -/
structure EntryParsers where
  item : List TT → Option Item
  metas : List TT → Option (List Meta)

/-- `hooq`, /repo/hooq-macros/src/lib.rs:18-24. -/
def hooqMacro (P : EntryParsers) (env : Env) (attr item : List TT) : Outcome :=
  match P.item item with
  | none => .compileError .itemSyntax
  | some i =>
    match P.metas attr with
    | none => .compileError .argSyntax
    | some args =>
      match hooqImpls env args i with
      | .ok (uses, o) => .code uses o
      | .error .panic => .panicked
      | .error e => .compileError (.expansion e)

end Hooq
