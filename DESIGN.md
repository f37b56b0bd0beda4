# Formal model of hooq: design

Subject: `anotherhollow1125/hooq` at the pinned commit, source in `/repo`.
`hooq` is an attribute macro.  `#[hooq]` on an item walks the item's syntax tree
and hooks a method on every `?`, `return` and tail expression.  Inert attributes
`#[hooq::...]` change the settings for a subtree, named presets ("flavors") and a
`hooq.toml` provide them in bulk, and four helper macros print source excerpts.

The properties are in `properties.jsonl`, the model and the proofs in `lean/Verif`,
the claim table in `MANIFEST.json`, and the seeded-bug log in `seeded/LOG.jsonl`.

## Trusted base

* Lean 4.33.0's kernel.  No axiom is added, there is no `sorry`, no
  `native_decide` and no `bv_decide`.  Theorems depend on at most
  `propext`, `Classical.choice` and `Quot.sound`.
* The hand translation of the Rust source to Lean definitions; each definition
  cites file and lines.  Nothing is extracted automatically.
* External libraries are not modelled: `syn` (parsing and printing), `proc_macro2`,
  `toml`, the file system and the compiler's span service.  Where the code calls
  them, the model takes an arbitrary function as a parameter (a field of `Env` or
  an argument); theorems hold for every such function unless a hypothesis says more.

## Layout

* `Verif/Model/*`: the code, function by function.
* `Verif/Spec/*`: small independent specifications used in statements.
* `Verif/Proof/*`: lemmas.
* `Verif/Props/*`: the property theorems, each with an `example` that meets the
  hypotheses on a non-trivial case.
* `Verif/Conform/*`: a program that compares the model with recorded expansions; nothing
  else depends on it.

## What is modelled

Every definition in `Verif/Model` cites file and lines; paths below are relative to
`/repo/hooq-macros/src/impls` unless they start with `/repo`.

| model file | code |
|------------|------|
| `Token` | token trees, paths, attribute values, hash maps (association lists) |
| `Method` | `method/mod.rs`; hook targets, counters and ordinals of `inert_attr/context.rs` |
| `Flavor` | `flavor/mod.rs` (types, lookup), `flavor/flavor_path.rs`, `flavor/presets/*`, `flavor/toml_load/apply.rs` |
| `TomlDoc` | `flavor/toml_load/mod.rs`: what the derived `Deserialize` accepts |
| `Cache` | `flavor/mod.rs` (`TomlStore`, `with_hooq_toml`), `utils/get_hooq_crate_name.rs`, as a transition system |
| `Attr` | `inert_attr/parse.rs`, `inert_attr/mod.rs` |
| `Context` | `inert_attr/context.rs`, `utils/function_info.rs` |
| `Render` | `method/render/mod.rs`, `method/render/meta_vars.rs` |
| `Syntax` | the `syn` types that `walker/mod.rs` distinguishes, `utils/get_attrs.rs` |
| `Walker` | `walker/mod.rs`, `walker/hook_expr.rs`, `walker/walk_macro.rs` |
| `MacroParse` | the parser of macro bodies in `walker/walk_macro.rs` |
| `Root` | `root_attr/parse.rs`, `root_attr/mod.rs`, `mod.rs` (`hooq_impls`) |
| `Entry` | `/repo/hooq-macros/src/lib.rs`: the attribute macro as the compiler calls it |
| `Metas` | attributes and the arguments of `#[hooq(..)]` as tokens: `syn::parse2::<MetaNameValue>` and `attr.meta` in `inert_attr/parse.rs`, `parse_terminated(Meta::parse, ..)` in `root_attr/parse.rs`, with `syn`'s grammar of paths and metas |
| `ErrPlace` | where the errors of `inert_attr/parse.rs` are shown: `syn::Error::new_spanned` there, and the cursor of `syn` where `parse2` fails |
| `RootPlace` | where the errors of `root_attr/parse.rs` and `RootContext::load` are shown |
| `Message` | the error messages that list names or formats, in `method/render/mod.rs`, `flavor/mod.rs`, `root_attr/parse.rs` and `inert_attr/parse.rs` |
| `Prec`, `Skel` | the part of `syn`'s expression parser that decides what a method call written after an expression applies to |
| `Excerpt` | `utils/source_excerpt.rs` |
| `ExcerptArgs` | `utils/source_excerpt_macros.rs` |
| `OptPlace` | `/repo/hooq-macros/src/lib.rs:31-192`: the excerpt macros as a whole, and where their errors are shown |
| `Helpers` | `/repo/hooq-helpers/src/lib.rs` (`HooqMeta`), and the values of the code that `$bindings` and `$hooq_meta` expand to |
| `Spliced` | `/repo/hooq-macros/src/impls/method/render/mod.rs:186-211, 306-316`: the tokens that `$bindings` and `$hooq_meta` expand to; `Spec/RunCode.lean` says what they compute (C93), `Spec/RunHook.lean` what the methods of the built-in flavors do (C94) |
| `Features` | `[features]` of `/repo/hooq/Cargo.toml` and what depends on them |
| `Exports` | `/repo/hooq/src`, `/repo/hooq-macros/src/lib.rs`, `/repo/hooq-helpers/src/lib.rs`: the public names of the three packages |
| `Sync` | `/repo/.github/scripts/sync.rs`: the script that brings versions and README files in order |
| `Books` | `/repo/docs/generate_mdbooks.rs`: the script that builds the reference for every version |
| `Mask` | `/repo/test-helpers/src/lib.rs`: masking the project root in recorded expansions |
| `NewProject` | `/repo/mdbook-source-code/new_project.rs`: the script that makes a new project for the books |

Not modelled:

* Texts of error messages
  that list no names or formats, and spans of errors other than those of templates (C73), of
  inert attributes (C87), of the arguments of `#[hooq(..)]` (C91) and of the excerpt macros (C92); errors are told apart by constructor.
  Documentation, examples and test crates.
* The libraries `syn`, `quote`, `proc_macro2`, `toml`, `serde` and `proc_macro_crate`,
  other than as said in the table.  Running the expanded code, other than as said below.

## How each part is modelled

* Syntax tree.  One constructor per `syn::Expr`/`Stmt`/`Item` variant that the
  walker distinguishes.  Parts that the walker never looks at (patterns, types,
  labels, generics) are opaque payload.  Macro invocations carry their body
  either as opaque tokens or already parsed in the list of evaluables; how the
  code decides between the two is `MacroParse`, and C54 connects them.
* Tokens.  Token trees with spans; an expression spliced into a template is a hole
  token, so that the model does not need a printer for expressions.
* Spans.  `expr.span()` of a tail expression begins with the `#` of an attribute that stays in front
  of it; attributes have no spans in the model.  So the span of the leftmost sub-expression stands for
  the position of that `#` if there is one.  No other use of the span of such a sub-expression is made,
  except for `return`, whose own position anchors its hook: a `return` that is a tail expression and
  carries a foreign attribute has one position in the model and two in the code.  C31_foreign_ignored
  is to be read with this: the spans of both items are the same.
* A hooked expression is a dedicated node that records kind, mode, expanded tokens,
  `$expr` and `$source`.  It stands for the token sequence the macro emits.  The code
  parses that sequence again (`parse_quote!`) and panics if this fails; whether it
  fails is decided by the fields `insertRear` and `replaceShape` of `Env`, which
  are arbitrary.  C86 assumes of `insertRear` only that it accepts what the grammar in
  `Spec/Chain.lean` (calls, fields, indices, `.await` and `?` behind an operand) derives;
  that syn does is not proved; likewise C105 for `replaceShape`.  The latter sees of the operand only how it
  ends.  This is all that matters where the operand stands in brackets, behind `=` or at the end, as in C105.  In front of a
  `{`, as in `match $expr {`, it also matters whether the operand shows a struct literal (`S { x }.f()?`; `$expr` is
  spliced without parentheses, so that syn rejects it), which is not modelled: theorems about such texts have the success
  of the expansion as a hypothesis.  Which sub-expression a `.method` suffix binds to grammatically is
  the subject of C50, in `Prec` and `Skel`.
* Walker.  A state (the counter of `$count`) and error monad.  `Err.panic` stands for
  a Rust panic.
* Generic view.  The forty-odd node kinds are mapped to one rose tree whose nodes
  carry attributes, hooks and an edge label (new scope, tail position, function
  entered, macro body).  One uniform walk on rose trees is proved equal to the
  concrete walk through that view (`Proof/RefineMain.lean`).  Positions are paths in
  the rose tree; `Item.chain p` lists the nodes from the position up to the root.  The
  position-wise properties say what is at a path of the output in terms of that chain.
* Hash maps.  Association lists; iteration order is the list order, and statements
  about order independence quantify over permutations.
* Global configuration cache.  A transition system over histories of atomic steps
  of any number of clients, with environment variable and files changed by others
  at any time.
* Excerpt helpers.  Functions on lists of characters and token trees.

## Parameters

`Env` (an expansion): the consume-question feature, the verdicts on re-parsing described
above, `syn`'s parsers for `name = value` and for lists of paths, and the flavor store or
the error of loading it.  `TomlEnv` (applying a `hooq.toml`): `syn`'s parsers for paths,
tokens and expressions.  `StoreEnv` (cache): the parser of the text, the crates found,
the features.  `OptReader` (excerpt macros): `syn`'s reading of literals and its parser for
expressions.  `MacroParse`: its parsers for expressions, items, statements and files.  `Entry`: `syn`'s parsers for items and lists of metas.
`Helpers`: the values of expressions at run time.  `SyncEnv`, `BookEnv` and `ProjectEnv` (the scripts): TOML,
the template engine, `cargo sort`, `cargo new`, writing files, crates.io, git and mdBook; C84 assumes that the parser reads
what the printer writes and that `cargo sort` does what it is for (`SyncEnv.Sound`).

Groups without delimiters (`Delimiter::None`, made by other macros around `$x:expr` or
`$m:meta` fragments): `syn` looks through them when it reads method prefixes, string lists,
booleans, the paths of attributes, the arguments of `#[hooq(..)]` and the options of the
excerpt macros, and so does the model (`enteredAll`, `visible`).

No theorem restricts these parameters except where its statement says so.  The
hypotheses that occur are: bindings and tables have no key twice (they are hash maps in the
code; proved to be kept by all operations); the input contains no hooked node (no source
code does); a parser reads at least one token when it succeeds, and printing gives back
what was read (C54); for the end-of-hook statements of C50, method texts end like closed
expressions (`Tidy`) and the operands of `?` in the input take postfix operators as a
whole (`Parsed`), which C50_question_operand proves of everything a parser can read; for
C68, the verdicts on re-parsing do not depend on the text of string literals (`CountBlind`); for
C86, chains of calls are read (`ReadsChains`); for C105, expressions are read (`ReadsExprs`); for C103_feature, nothing is read that ends with `!`
(`NoBangBehind`).  `reading_meets` in `Props/Reader.lean` shows that a small computable reader, which is
not a model of syn, meets `CountBlind`, `ReadsChains` and `NoBangBehind` together, and `reading_exprs` that it meets `ReadsExprs`.

The second expansion of a nested `#[hooq]` item (C67) gets the printed output of the first one,
parsed again.  Neither the printer nor the parser is modelled; `Spec/Reread.lean` defines the
tree that results (an inserted method becomes postfix operators, on the node or on its last
part, as the grammar says), and C67 takes this as its hypothesis `read`.  Left out there: hooks
that replace the operand, closures without return type whose block body gets the method, and
attributes on hooked paths and literals.

Behaviour of the expanded code (C69) is stated for an arbitrary compositional semantics
(`Spec/Meaning.lean`), not for Rust's; that Rust's meaning of code is compositional in this
sense, with hooks as functions on meanings, is for the reader to accept.  C93 and C94 read the
tokens of a hook as Rust does; `Spec/RunCode.lean` and `Spec/RunHook.lean` define the few
constructs that occur (paths, calls, struct literals, `let`, closures, format strings, the
methods and macros called), and are trusted as a description of them.  C96, C97, C100 and C101 speak of runs
of whole functions and programs; `Spec/Run.lean` and `Spec/Trace.lean` say what these are, on the generic tree: a node may run its
parts in any order and number, only `?`, `return`, hooks and the ends of bodies are fixed.
That every run in Rust is one of these is for the reader to accept.

C102 speaks of the absolute paths in hooks.  `Spec/Names.lean` says which tokens make up such a path, and what
it stands for in a project, given the packages that the project knows; that
`proc_macro_crate` finds these is its hypothesis `Found`.

## Properties and their state

`MANIFEST.json` is the current state.  In short:

* Placement of hooks: C01-C03, C19, C56, exact for every position of every item; C106 and C107 compare two flavors,
  C108 and C109 two sets of attributes.
  C06 and C07 in the form a user would expect are false in the code for nested
  skips; their theorems carry the hypothesis that excludes it, and C56 is the exact law.
* What stays as it was: C04, C05, C09, C10, C13, C14, C20, C67.  C04 and what follows from
  it is false for two kinds of attributes that the code drops (C04_attr_lost); C60 is the
  exact law.  C20 (every target of a nested `#[hooq]` item is hooked twice) is false where
  inert attributes or callees decide; C67 is the exact law.
* Behaviour of the expanded code: C69; under the built-in flavors: C83, C95-C97, C100, C101; with the methods of the recipes that take the `?` away: C103.
* Settings and scoping: C08, C17, C30-C32, C55, C68, C72, C79, C104.  C17 is false for async blocks; C72 is
  the exact law.
* Hooked text: C11, C12, C15, C16, C21-C28, C57, C70, C80, C81, C90, C102.  C24 is false for `$` at the end of a
  group; C57 is the exact law.  C27 (spans) is false for the leading `.`; C70 is the exact law.
* The attribute macro as a whole, how its arguments are written and where its output may stand:
  C41, C74, C78.
* Errors: C18, C31, C51, C52, C61, C71, C73, C77, C86, C87, C91, C105.  C18 is false for casts and the like; C61 is the
  exact law, and C86 derives its hypotheses from the grammar of the methods, as C105 does for methods that replace.  C77 is false for three formats and names the forms that the help text leaves out.
* Flavors and `hooq.toml`: C29, C33-C38, C41, C58, C59, C65, C75, C82, C88, C89.  C35 is false for trait uses; C75
  is the exact law.
* Cache: C39, C40, C53, C66.
* Excerpts and helpers: C42-C49, C92; C62-C64 are the exact laws where C42-C46 are false (limits 0
  and 1, tokens with line breaks).
* The scripts and test helpers of the repository: C84, C85, C98, C99.  C85 is false for the place a book is built for.
* Grammar: C50, C54, C76.  C50 is false for operators; C76 is the exact law.

A claim is `partial` when the statement in `properties.jsonl` is false for the code in some
case (then a witness theorem is listed beside the restricted one) or when a part is not
modelled.

## Comparing the model with recorded expansions

The repository contains the recorded output of its own snapshot tests.  The scripts in
`conformance/` parse the inputs of these tests (a small parser of the Rust that occurs
there, following `syn`'s rules), run the model on them with `#eval`, and compare the
result token by token with the recorded expansion, after undoing what other macros
(`println!`, `vec!`) and the pretty printer did to it.

* `python3 conformance/snapshots.py`: 105 of 108 files agree, 99 of them in all tokens and
  6 (whose bodies contain expansions of `anyhow!`, `log!` and the like) in all hook
  positions.  The rest are no disagreements: one contains outputs of the excerpt macros,
  one uses `cfg_attr`, and one recorded file lacks a function that the input has.
* `python3 conformance/excerpts.py`: all 20 snapshots of the excerpt macros agree.
* `lean/Verif/Conform/*`: a second, independent comparison written in Lean: a lexer, a
  parser in the manner of `syn` (also used as the parsers that macro bodies are read with
  and that decide how emitted tokens re-parse), a reader of `hooq.toml` and a printer around
  the model.  104 of 108 files agree in all tokens, including the texts that the helper
  macros produce; the other four contain expansions of `log!` or `tracing`, use `cfg_attr`,
  or are the recorded file without one function.  The head of `Check.lean` has the command.

This is a test of the translation, not part of any proof.

## Testing the theorems

`seeded/LOG.jsonl` lists wrong variants of the model, one edit each, and the theorems that
no longer build with it.  For these runs, all `example`s were removed, so that only
theorems can detect an edit.
