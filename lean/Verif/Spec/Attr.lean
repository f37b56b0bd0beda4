import Verif.Model.Context

/-!
# What one attribute sets

Independent tables: for each setting, the value that a single attribute gives it.
-/

namespace Hooq

/-- An inert attribute: its path is `hooq::` followed by something. -/
def Meta.isInert (a : Attr) : Bool :=
  match a.getPath.segs with
  | s :: _ :: _ => s.ident == "hooq"
  | _ => false

/-- The flavor an attribute value names, if the name resolves. -/
def flavorOf (env : Env) (v : Value) : Option Settings := (flavorOfValue env v "").toOption

/-- `e` in the form `some` when `p` is one of the names. -/
def whenNamed {α : Type} (p : Path) (names : List String) (e : Option α) : Option α :=
  if p ∈ names.map hooqPath then e else none

/-- The method an attribute sets: `hooq::method(..)`, `hooq::method = F`,
`hooq::flavor = F`. -/
def methodOf (env : Env) : Attr → Option Method
  | .nv p v => whenNamed p ["flavor", "method"] ((flavorOf env v).map (·.method))
  | .list p ts => whenNamed p ["method"] (some (Method.parse env.consume ts))
  | .path _ => none

/-- The hook targets an attribute sets. -/
def targetsOf (env : Env) : Attr → Option Targets
  | .nv p v => whenNamed p ["flavor", "hook_targets"] ((flavorOf env v).map (·.targets))
  | .list p ts => whenNamed p ["hook_targets"]
      ((parseStrings ts).bind fun l => (Targets.parse l).toOption)
  | .path _ => none

/-- The tail expression identifiers an attribute sets; entries with `!` are left
out. -/
def tailIdentsOf (env : Env) : Attr → Option (List String)
  | .nv p v => whenNamed p ["flavor", "tail_expr_idents"] ((flavorOf env v).map (·.tailIdents))
  | .list p ts => whenNamed p ["tail_expr_idents"]
      ((parseStrings ts).map fun l => l.filter fun s => s.toList.head? ≠ some '!')
  | .path _ => none

/-- The result types an attribute sets. -/
def resultTypesOf (env : Env) : Attr → Option (List String)
  | .nv p v => whenNamed p ["flavor", "result_types"] ((flavorOf env v).map (·.resultTypes))
  | .list p ts => whenNamed p ["result_types"] (parseStrings ts)
  | .path _ => none

/-- The macro switch an attribute sets. -/
def macrosOf (env : Env) : Attr → Option Bool
  | .nv p v => whenNamed p ["flavor", "hook_in_macros"] ((flavorOf env v).map (·.hookInMacros))
  | .list p ts => whenNamed p ["hook_in_macros"] (parseBool ts)
  | .path _ => none

/-- The strings with a leading `!`, without it. -/
def bangs (l : List String) : List String :=
  l.filterMap fun s => match s.toList with
    | '!' :: rest => some (String.ofList rest)
    | _ => none

/-- Effect of an attribute on the ignore identifiers: a flavor form replaces them, a
list form adds to those given before on the same node. -/
inductive IgnoreEffect
  | keep
  | set (l : List String)
  | add (l : List String)
deriving DecidableEq, Repr

/-- Effect of an attribute on the ignore identifiers. -/
def ignoreOf (env : Env) : Attr → IgnoreEffect
  | .nv p v =>
    if p ∈ ["flavor", "tail_expr_idents"].map hooqPath then
      match flavorOf env v with
      | some f => .set f.ignoreIdents
      | none => .keep
    else .keep
  | .list p ts =>
    if p = hooqPath "tail_expr_idents" then
      match parseStrings ts with
      | some l => if bangs l = [] then .keep else .add (bangs l)
      | none => .keep
    else if p = hooqPath "ignore_tail_expr_idents" then
      match parseStrings ts with
      | some l => .add l
      | none => .keep
    else .keep
  | .path _ => .keep

/-- One step of the ignore identifiers of a node. -/
def IgnoreEffect.apply (cur : Option (List String)) : IgnoreEffect → Option (List String)
  | .keep => cur
  | .set l => some l
  | .add l => some (cur.getD [] ++ l)

/-- The ignore identifiers the attributes of one node set. -/
def nodeIgnore (env : Env) (attrs : List Attr) : Option (List String) :=
  attrs.foldl (fun cur a => (ignoreOf env a).apply cur) none

/-- Names that are settings and not bindings in the form `hooq::name = value`. -/
def settingNames : List String :=
  ["flavor", "method", "hook_targets", "tail_expr_idents", "ignore_tail_expr_idents",
   "result_types", "hook_in_macros", "bindings"]

/-- The value an attribute gives to binding `k`: `hooq::k = v`,
`hooq::binding(k = v)`, `hooq::var(k = v)`, or through a flavor. -/
def bindingOf (env : Env) (k : String) : Attr → Option Value
  | .nv p v =>
    if p ∈ ["flavor", "bindings"].map hooqPath then
      (flavorOf env v).bind fun f => (f.bindings.filterMap fun b => if b.1 = k then some b.2 else none).getLast?
    else if p ∈ settingNames.map hooqPath then none
    else match p.segs with
      | [s, b] => if s.ident = "hooq" ∧ b.ident = k then some v else none
      | _ => none
  | .list p ts => whenNamed p ["binding", "var"] (match env.parseNameValue ts with
      | some (q, v) => if q = Path.ofIdents [k] then some v else none
      | none => none)
  | .path _ => none

/-- `#[hooq::skip]`. -/
def Meta.isSkip : Attr → Bool
  | .path p => p == hooqPath "skip"
  | _ => false

/-- `#[hooq::skip_all]`. -/
def Meta.isSkipAll : Attr → Bool
  | .path p => p == hooqPath "skip_all"
  | _ => false

/-- The last value in a list of optional settings. -/
def lastSet {α β : Type} (f : α → Option β) (l : List α) : Option β := (l.filterMap f).getLast?

end Hooq
