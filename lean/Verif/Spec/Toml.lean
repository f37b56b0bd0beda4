import Verif.Spec.Flavor
import Verif.Spec.AttrForm

/-!
# What a `hooq.toml` means
-/

namespace Hooq

/-- The sub-table at a path. -/
def Table.descend (t : Table) : List String → Option Table
  | [] => some t
  | n :: path => (t.subs.get? n).bind fun u => u.descend path

/-- The table `[a.b.c]` of a file. -/
def tableAt (toml : AMap Table) : List String → Option Table
  | [] => none
  | n :: path => (AMap.get? toml n).bind fun t => t.descend path

mutual
/-- No key twice in the table, at any depth. -/
def Table.Uniq : Table → Prop
  | .mk f subs => (AMap.keys f.bindings).Nodup ∧ (AMap.keys subs).Nodup ∧ TablesUniq subs
/-- All tables of the list are `Uniq`. -/
def TablesUniq : List (String × Table) → Prop
  | [] => True
  | (_, t) :: rest => t.Uniq ∧ TablesUniq rest
end

/-- A parsed file: no key twice, at any depth. -/
def UniqToml (toml : AMap Table) : Prop := (AMap.keys toml).Nodup ∧ TablesUniq toml

/-- `new` is `old` with the fields that the table mentions; the trait uses are always
those of the table. -/
structure FieldsOver (env : TomlEnv) (t : TableFields) (old new : Settings) : Prop where
  method : match t.method with
    | none => new.method = old.method
    | some text => ∃ ts, env.lex text = some ts ∧ new.method = Method.parse env.consume ts
  targets : match t.hookTargets with
    | none => new.targets = old.targets
    | some l => (∀ s ∈ l, KnownTarget s) ∧ ∀ k, new.targets.has k = true ↔ ∃ s ∈ l, NamesKind s k
  tailIdents : match t.tailIdents with
    | none => new.tailIdents = old.tailIdents
    | some l => new.tailIdents = l.filter fun s => s.toList.head? ≠ some '!'
  ignoreIdents : if t.ignoreIdents = none ∧ bangs (t.tailIdents.getD []) = []
    then new.ignoreIdents = old.ignoreIdents
    else new.ignoreIdents = bangs (t.tailIdents.getD []) ++ t.ignoreIdents.getD []
  resultTypes : match t.resultTypes with
    | none => new.resultTypes = old.resultTypes
    | some l => new.resultTypes = l
  hookInMacros : match t.hookInMacros with
    | none => new.hookInMacros = old.hookInMacros
    | some b => new.hookInMacros = b
  bindings : ∀ k, match AMap.get? t.bindings k with
    | none => new.bindings.get? k = old.bindings.get? k
    | some text => ∃ v, env.parseExpr text = some v ∧ new.bindings.get? k = some v
  traitUses : t.traitUses.map env.parsePath = new.traitUses.map some

/-- Where the flavor at a path starts from before its own table is applied: the flavor
that was there, or for a new top-level flavor the base, or for a new sub-flavor its
updated parent with the sub-flavors the parent had before. -/
inductive Origin (m m' : FlavorMap) (base : Flavor) : List String → Flavor → Prop
  | old {n : String} {f : Flavor} : m.get? n = some f → Origin m m' base [n] f
  | new {n : String} : m.get? n = none → Origin m m' base [n] base
  | oldSub {p : List String} {n : String} {f g : Flavor} :
      Origin m m' base p f → f.subs.get? n = some g → Origin m m' base (p ++ [n]) g
  | newSub {p : List String} {n : String} {f f' : Flavor} :
      Origin m m' base p f → f.subs.get? n = none → Reaches m' p f' →
      Origin m m' base (p ++ [n]) (.mk f'.settings f.subs)

/-- The same settings, up to the order of bindings. -/
structure SameSettings (s s' : Settings) : Prop where
  traitUses : s.traitUses = s'.traitUses
  method : s.method = s'.method
  targets : s.targets = s'.targets
  tailIdents : s.tailIdents = s'.tailIdents
  ignoreIdents : s.ignoreIdents = s'.ignoreIdents
  resultTypes : s.resultTypes = s'.resultTypes
  hookInMacros : s.hookInMacros = s'.hookInMacros
  bindings : ∀ k, s.bindings.get? k = s'.bindings.get? k

/-- The same flavor paths exist, with the same settings. -/
def SameStore (m m' : FlavorMap) : Prop :=
  ∀ path, Option.Rel (fun f g => SameSettings f.settings g.settings)
    (getFlavorInner m path) (getFlavorInner m' path)

/-- The same fields, up to the order of bindings. -/
structure SameFields (t t' : TableFields) : Prop where
  traitUses : t.traitUses = t'.traitUses
  method : t.method = t'.method
  hookTargets : t.hookTargets = t'.hookTargets
  tailIdents : t.tailIdents = t'.tailIdents
  ignoreIdents : t.ignoreIdents = t'.ignoreIdents
  resultTypes : t.resultTypes = t'.resultTypes
  hookInMacros : t.hookInMacros = t'.hookInMacros
  bindings : ∀ k, AMap.get? t.bindings k = AMap.get? t'.bindings k

/-- The same file, up to the order in which tables, sub-tables and bindings are
iterated. -/
def SameToml (toml toml' : AMap Table) : Prop :=
  ∀ path, Option.Rel (fun t u => SameFields t.fields u.fields) (tableAt toml path) (tableAt toml' path)

end Hooq
