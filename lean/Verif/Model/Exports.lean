/-!
# What the crates of the repository export

/repo/hooq/src/lib.rs, /repo/hooq/src/source_excerpt_helpers.rs, /repo/hooq-helpers/src/lib.rs and
/repo/hooq-macros/src/lib.rs.  Names are given as paths below the crate; macros, types and
modules are not told apart.
-/

namespace Hooq

/-- The macros of /repo/hooq-macros/src/lib.rs other than the attribute: lines 32, 86, 130 and 188. -/
def excerptMacros : List String :=
  ["truncate_lit_str", "pretty_stringify", "one_line_stringify", "excerpted_pretty_stringify"]

/-- The `pub` items of a package of the repository, `none` for other packages.
`hooq`: /repo/hooq/src/lib.rs:9-16 and /repo/hooq/src/source_excerpt_helpers.rs:1-3.
`hooq-macros`: /repo/hooq-macros/src/lib.rs:18, 32, 86, 130, 188.
`hooq-helpers`: /repo/hooq-helpers/src/lib.rs:17-20, 33-41. -/
def exportsOf (pkg : String) : Option (List (List String)) :=
  if pkg = "hooq" then
    some ([["BindingPayload"], ["HooqMeta"], ["hooq"], ["summary"], ["source_excerpt_helpers"]] ++
      excerptMacros.map fun m => ["source_excerpt_helpers", m])
  else if pkg = "hooq-macros" then some (["hooq"] :: excerptMacros.map fun m => [m])
  else if pkg = "hooq-helpers" then some [["BindingPayload"], ["HooqMeta"]]
  else none

end Hooq
