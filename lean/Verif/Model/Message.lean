import Verif.Model.Root

/-!
# Texts of error messages that list names
-/

namespace Hooq

/-- `META_VARS_LIST`, /repo/hooq-macros/src/impls/method/render/meta_vars.rs:20-33. -/
def metaVarsList : List MetaVar :=
  [.line, .column, .path, .file, .expr, .source, .count, .fnName, .fnSig, .soFar, .bindings,
    .hooqMeta]

/-- `impl Display for MetaVars`,
/repo/hooq-macros/src/impls/method/render/meta_vars.rs:57-78. -/
def MetaVar.display : MetaVar → String
  | .line => "line"
  | .column => "column"
  | .path => "path"
  | .file => "file"
  | .expr => "expr"
  | .source => "source"
  | .count => "count"
  | .fnName => "fn_name"
  | .fnSig => "fn_sig"
  | .soFar => "so_far"
  | .bindings => "bindings"
  | .hooqMeta => "hooq_meta"

/-- The message for a name that is neither a meta variable nor a binding,
/repo/hooq-macros/src/impls/method/render/mod.rs:319-339. -/
def unknownVarMessage (x : String) (bindings : List String) : String :=
  "unknown meta variable or binding: $" ++ x ++ "\navailable bindings:\n" ++
    "\n".intercalate (bindings.map fun k => " - $" ++ k) ++
    "\navailable meta variables:\n" ++
    "\n".intercalate (metaVarsList.map fun m => " - $" ++ m.display)

/-- The lines for flavors, /repo/hooq-macros/src/impls/flavor/mod.rs:176-180 and
/repo/hooq-macros/src/impls/root_attr/parse.rs:36-41.  The names are joined by `::` as in
`all_flavor_names` (mod.rs:185-207). -/
def flavorLines (names : List (List String)) : String :=
  "\n".intercalate (names.map fun q => "  - " ++ "::".intercalate q)

/-- The message of `get_flavor`, /repo/hooq-macros/src/impls/flavor/mod.rs:170-183. -/
def flavorNotFoundMessage (path : List String) (names : List (List String)) : String :=
  "flavor `" ++ "::".intercalate path ++ "` is not found. available flavors:\n" ++
    flavorLines names

/-- `root_attribute_error_message`,
/repo/hooq-macros/src/impls/root_attr/parse.rs:33-54. -/
def rootArgMessage (names : List (List String)) : String :=
  "expected attribute formats are below:\n\n- trait_use(...)\n- FLAVOR_NAME\n" ++
    flavorLines names ++ "\n- flavor = \"FLAVOR_NAME\"\n"

/-- The lines of `INERT_ATTRIBUTE_ERROR_MESSAGE`,
/repo/hooq-macros/src/impls/inert_attr/parse.rs:70-95. -/
def inertHelpLines : List String :=
  ["expected attribute formats are below:",
   "",
   "- #[hooq::method(/* e.g. `.method(...)` */)]",
   "- #[hooq::hook_targets(/* e.g. `\"return\", \"?\"` */)]",
   "- #[hooq::tail_expr_idents(/* e.g. `Err` */)]",
   "- #[hooq::ignore_tail_expr_idents(/* e.g. `Ok` */)]",
   "- #[hooq::result_types(/* e.g. `XxxResult` */)]",
   "- #[hooq::hook_in_macros(/* `true` or `false` */)]",
   "- #[hooq::binding(xxx = /* e.g. `42` */)] // xxx is param name",
   "- #[hooq::xxx = /* e.g. `42` */] // alternative syntax for binding",
   "- #[hooq::skip]",
   "- #[hooq::skip_all]",
   "",
   "or like #[hooq::SETTING = FLAVOR_NAME] format where",
   "- SETTING is one of:",
   "  - flavor",
   "  - method",
   "  - hook_targets",
   "  - tail_expr_idents // ignore_tail_expr_idents is included here",
   "  - result_types",
   "  - hook_in_macros",
   "  - bindings",
   "- FLAVOR_NAME is a flavor name as path or string",
   "This format overrides the corresponding setting with the one defined in the specified flavor.\"",
   ""]

/-- `INERT_ATTRIBUTE_ERROR_MESSAGE`,
/repo/hooq-macros/src/impls/inert_attr/parse.rs:70-95. -/
def inertHelpMessage : String := "\n".intercalate inertHelpLines

end Hooq
