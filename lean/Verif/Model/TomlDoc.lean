import Verif.Model.Flavor

/-!
# From a TOML document to flavor tables

/repo/hooq-macros/src/impls/flavor/toml_load/mod.rs:7-27: what the derived `Deserialize`
of `HooqToml` and `FlavorTable` accepts.  Reading the text is done by the `toml` crate and
not modelled: the input here is the document it read.
-/

namespace Hooq

/-- A TOML value.  `other` is a number.  Simplification: dates are left out.
For /repo/hooq-macros/src/impls/flavor/toml_load/mod.rs:7-27. -/
inductive TomlVal
  | str (s : String)
  | bool (b : Bool)
  | other
  | arr (l : List TomlVal)
  | table (l : List (String × TomlVal))
deriving Inhabited

/-- A table of a document: keys and values.  The `toml` crate rejects a key that occurs
twice, hence the theorems assume that none does.
For /repo/hooq-macros/src/impls/flavor/toml_load/mod.rs:7-27. -/
abbrev Entries := AMap TomlVal

/-- `String` as a target of deserialization.
For /repo/hooq-macros/src/impls/flavor/toml_load/mod.rs:7-27. -/
def TomlVal.asStr : TomlVal → Option String
  | .str s => some s
  | _ => none

/-- `bool` as a target of deserialization.
For /repo/hooq-macros/src/impls/flavor/toml_load/mod.rs:7-27. -/
def TomlVal.asBool : TomlVal → Option Bool
  | .bool b => some b
  | _ => none

/-- `Vec<String>` as a target of deserialization.
For /repo/hooq-macros/src/impls/flavor/toml_load/mod.rs:7-27. -/
def TomlVal.asStrs : TomlVal → Option (List String)
  | .arr l => l.mapM TomlVal.asStr
  | _ => none

/-- `HashMap<String, String>` as a target of deserialization.
For /repo/hooq-macros/src/impls/flavor/toml_load/mod.rs:7-27. -/
def TomlVal.asBindings : TomlVal → Option (AMap String)
  | .table l => l.mapM fun kv => kv.2.asStr.map fun s => (kv.1, s)
  | _ => none

/-- A field of type `Option<T>`: `none` if the key is missing.
For /repo/hooq-macros/src/impls/flavor/toml_load/mod.rs:7-27. -/
def optField {α : Type} (read : TomlVal → Option α) (l : Entries) (k : String) : Option (Option α) :=
  match AMap.get? l k with
  | none => some none
  | some v => (read v).map some

/-- The fields of `FlavorTable` other than `sub_flavors`,
/repo/hooq-macros/src/impls/flavor/toml_load/mod.rs:15-24. -/
def readFields (l : Entries) : Option TableFields := do
  let traitUses ← optField TomlVal.asStrs l "trait_uses"
  let method ← optField TomlVal.asStr l "method"
  let hookTargets ← optField TomlVal.asStrs l "hook_targets"
  let tailIdents ← optField TomlVal.asStrs l "tail_expr_idents"
  let ignoreIdents ← optField TomlVal.asStrs l "ignore_tail_expr_idents"
  let resultTypes ← optField TomlVal.asStrs l "result_types"
  let hookInMacros ← optField TomlVal.asBool l "hook_in_macros"
  let bindings ← optField TomlVal.asBindings l "bindings"
  return { traitUses := traitUses.getD [], method, hookTargets, tailIdents, ignoreIdents, resultTypes,
           hookInMacros, bindings := bindings.getD [] }

/-- The names of those fields.
For /repo/hooq-macros/src/impls/flavor/toml_load/mod.rs:7-27. -/
def fieldNames : List String :=
  ["trait_uses", "method", "hook_targets", "tail_expr_idents", "ignore_tail_expr_idents",
   "result_types", "hook_in_macros", "bindings"]

mutual
/-- `FlavorTable` as a target of deserialization,
/repo/hooq-macros/src/impls/flavor/toml_load/mod.rs:13-27. -/
def TomlVal.asTable : TomlVal → Option Table
  | .table l => do
    let f ← readFields l
    let subs ← readSubs l
    return .mk f subs
  | _ => none
/-- The flattened `sub_flavors`: everything that is not a field,
/repo/hooq-macros/src/impls/flavor/toml_load/mod.rs:25-26. -/
def readSubs : List (String × TomlVal) → Option (List (String × Table))
  | [] => some []
  | (k, v) :: rest =>
    if k ∈ fieldNames then readSubs rest
    else do
      let t ← v.asTable
      let r ← readSubs rest
      return (k, t) :: r
end

/-- `HooqToml` as a target of deserialization: every entry of the document is a flavor,
/repo/hooq-macros/src/impls/flavor/toml_load/mod.rs:7-11. -/
def readToml : Entries → Option (AMap Table)
  | [] => some []
  | (k, v) :: rest => do
    let t ← v.asTable
    let r ← readToml rest
    return (k, t) :: r

end Hooq
