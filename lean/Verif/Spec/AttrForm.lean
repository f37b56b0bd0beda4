import Verif.Spec.Position

/-!
# Which attributes are well-formed
-/

namespace Hooq

/-- The names of the hook target kinds. -/
def targetNames : List (String × List Kind) :=
  [("?", [.question]), ("question", [.question]), ("return", [.ret]), ("tail_expr", [.tail]),
   ("tail expr", [.tail]), ("tailexpr", [.tail]), ("tailExpr", [.tail]),
   ("all", [.question, .ret, .tail])]

/-- The entry names the kind. -/
def NamesKind (s : String) (k : Kind) : Prop := ∃ l, (s, l) ∈ targetNames ∧ k ∈ l

/-- The entry is a known name. -/
def KnownTarget (s : String) : Prop := ∃ l, (s, l) ∈ targetNames

/-- The path consists of `hooq` and one more segment. -/
def Path.IsHooqPair (p : Path) : Prop := ∃ a b, p.segs = [a, b] ∧ a.ident = "hooq"

/-- The attribute is not inert, or it has one of the documented forms. -/
def AttrOk (env : Env) (a : Attr) : Prop :=
  a.isInert = false ∨
  match a with
  | .path p => p ∈ ["skip", "skip_all"].map hooqPath
  | .list p ts =>
      p = hooqPath "method" ∨
      (p = hooqPath "hook_targets" ∧ ∃ l, parseStrings ts = some l ∧ ∀ s ∈ l, KnownTarget s) ∨
      (p ∈ ["tail_expr_idents", "ignore_tail_expr_idents", "result_types"].map hooqPath ∧
        ∃ l, parseStrings ts = some l) ∨
      (p = hooqPath "hook_in_macros" ∧ ∃ b, parseBool ts = some b) ∨
      (p ∈ ["binding", "var"].map hooqPath ∧
        ∃ x v, env.parseNameValue ts = some (Path.ofIdents [x], v))
  | .nv p v =>
      (p ∈ ["flavor", "method", "hook_targets", "tail_expr_idents", "result_types",
          "hook_in_macros", "bindings"].map hooqPath ∧ ∃ f, flavorOf env v = some f) ∨
      (p.IsHooqPair ∧ p ∉ settingNames.map hooqPath)

/-- Two summaries of the attributes of a node say the same. -/
structure SameInert (i j : Inert) : Prop where
  method : i.method = j.method
  targets : i.targets = j.targets
  tailIdents : i.tailIdents = j.tailIdents
  ignoreIdents : i.ignoreIdents = j.ignoreIdents
  resultTypes : i.resultTypes = j.resultTypes
  hookInMacros : i.hookInMacros = j.hookInMacros
  bindings : ∀ k, i.bindings.get? k = j.bindings.get? k
  skip : i.skip = j.skip
  skipAll : i.skipAll = j.skipAll

/-- No setting is given a value by both attributes. -/
structure SetsApart (env : Env) (a b : Attr) : Prop where
  method : methodOf env a = none ∨ methodOf env b = none
  targets : targetsOf env a = none ∨ targetsOf env b = none
  tailIdents : tailIdentsOf env a = none ∨ tailIdentsOf env b = none
  ignoreIdents : ignoreOf env a = .keep ∨ ignoreOf env b = .keep
  resultTypes : resultTypesOf env a = none ∨ resultTypesOf env b = none
  hookInMacros : macrosOf env a = none ∨ macrosOf env b = none
  bindings : ∀ k, bindingOf env k a = none ∨ bindingOf env k b = none

/-- The attribute adds the given identifiers to the ignore identifiers. -/
def addedIgnores (env : Env) (a : Attr) : List String :=
  match ignoreOf env a with
  | .add l => l
  | _ => []

mutual
/-- The tree without its foreign attributes. -/
def RTree.inertOnly : RTree → RTree
  | .mk d ms ks =>
    .mk { d with attrs := d.attrs.filter Meta.isInert } (RTree.inertOnlyMarks ms)
      (RTree.inertOnlyList ks)
/-- `inertOnly` on a hook. -/
def RTree.inertOnlyMark : HookData × RTree → HookData × RTree
  | (hk, t) => (hk, t.inertOnly)
/-- `inertOnly` on hooks. -/
def RTree.inertOnlyMarks : List (HookData × RTree) → List (HookData × RTree)
  | [] => []
  | m :: ms => RTree.inertOnlyMark m :: RTree.inertOnlyMarks ms
/-- `inertOnly` on siblings. -/
def RTree.inertOnlyList : List RTree → List RTree
  | [] => []
  | k :: ks => k.inertOnly :: RTree.inertOnlyList ks
end

end Hooq
