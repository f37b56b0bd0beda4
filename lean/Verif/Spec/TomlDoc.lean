import Verif.Model.TomlDoc
import Verif.Spec.Toml

/-!
# Which documents are a `hooq.toml`, and what they say
-/

namespace Hooq

/-- The table at a path of a document. -/
def entriesAt (l : Entries) : List String → Option Entries
  | [] => some l
  | n :: path => match AMap.get? l n with
    | some (.table l') => entriesAt l' path
    | _ => none

/-- The type of a setting. -/
inductive SettingType
  | text | flag | texts | textMap

/-- The settings of a flavor. -/
def settingType : String → Option SettingType
  | "trait_uses" => some .texts
  | "method" => some .text
  | "hook_targets" => some .texts
  | "tail_expr_idents" => some .texts
  | "ignore_tail_expr_idents" => some .texts
  | "result_types" => some .texts
  | "hook_in_macros" => some .flag
  | "bindings" => some .textMap
  | _ => none

/-- A value has a type. -/
def HasType (v : TomlVal) : SettingType → Prop
  | .text => ∃ s, v = .str s
  | .flag => ∃ b, v = .bool b
  | .texts => ∃ l : List String, v = .arr (l.map .str)
  | .textMap => ∃ l : List (String × String), v = .table (l.map fun kv => (kv.1, .str kv.2))

/-- A path that names a flavor: below the top level, names of settings are settings. -/
def FlavorName : List String → Prop
  | [] => False
  | _ :: path => ∀ n ∈ path, settingType n = none

/-- A document in which all settings have their type and everything else is a table. -/
structure GoodDoc (doc : Entries) : Prop where
  top : ∀ n v, AMap.get? doc n = some v → ∃ l, v = .table l
  setting : ∀ q l n v τ, FlavorName q → entriesAt doc q = some l → AMap.get? l n = some v →
    settingType n = some τ → HasType v τ
  sub : ∀ q l n v, FlavorName q → entriesAt doc q = some l → AMap.get? l n = some v →
    settingType n = none → ∃ l', v = .table l'

mutual
/-- No key twice, at any depth. -/
def TomlVal.Uniq : TomlVal → Prop
  | .table l => (AMap.keys l).Nodup ∧ EntriesUniq l
  | _ => True
/-- All values of the list are `Uniq`. -/
def EntriesUniq : List (String × TomlVal) → Prop
  | [] => True
  | (_, v) :: rest => v.Uniq ∧ EntriesUniq rest
end

/-- A document: no key twice, at any depth. -/
def UniqDoc (doc : Entries) : Prop := (AMap.keys doc).Nodup ∧ EntriesUniq doc

/-- The fields say what the entries of the document say; a setting that is not in the
document is not set. -/
structure FieldsOf (l : Entries) (f : TableFields) : Prop where
  traitUses : AMap.get? l "trait_uses" = some (.arr (f.traitUses.map .str)) ∨
    AMap.get? l "trait_uses" = none ∧ f.traitUses = []
  method : AMap.get? l "method" = f.method.map .str
  hookTargets : AMap.get? l "hook_targets" = f.hookTargets.map fun x => .arr (x.map .str)
  tailIdents : AMap.get? l "tail_expr_idents" = f.tailIdents.map fun x => .arr (x.map .str)
  ignoreIdents : AMap.get? l "ignore_tail_expr_idents" = f.ignoreIdents.map fun x => .arr (x.map .str)
  resultTypes : AMap.get? l "result_types" = f.resultTypes.map fun x => .arr (x.map .str)
  hookInMacros : AMap.get? l "hook_in_macros" = f.hookInMacros.map .bool
  bindings : AMap.get? l "bindings" = some (.table (f.bindings.map fun kv => (kv.1, .str kv.2))) ∨
    AMap.get? l "bindings" = none ∧ f.bindings = []

end Hooq
