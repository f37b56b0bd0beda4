import Verif.Spec.Help
import Verif.Spec.Metas

/-!
# How an inert attribute may be written
-/

namespace Hooq

/-- What an inert attribute says. -/
inductive InertSays
  | skip
  | skipAll
  | method (ts : List TT)
  | targets (l : List String)
  | tail (l : List String)
  | ignore (l : List String)
  | results (l : List String)
  | macros (b : Bool)
  | bind (x : String) (v : Value)
  | setting (x : String) (f : Settings)

/-- A word that may stand in a path. -/
def PlainWord (x : String) : Prop := x ∉ otherKeywords

/-- `hooq::x`, then `r`. -/
def HooqText (x : String) (r ts : List TT) : Prop :=
  ∃ sp1 sp2 r1 r2, Begins (.ident "hooq" sp1) r1 ts ∧ ColonsText r2 r1 ∧ Begins (.ident x sp2) r r2

/-- The text begins with `hooq::` or `::hooq::`. -/
def HooqStart (ts : List TT) : Prop :=
  ∃ ts', (ts' = ts ∨ ColonsText ts' ts) ∧ ∃ sp r r', Begins (.ident "hooq" sp) r ts' ∧ ColonsText r' r

/-- `hooq::x(g)`. -/
def HooqList (x : String) (g ts : List TT) : Prop :=
  ∃ d sp r, HooqText x (.group d g sp :: r) ts ∧ d ≠ .none ∧ Blank r

/-- A value and nothing else. -/
def ValueText (value : List TT → Option (Value × List TT)) (v : Value) (ts : List TT) : Prop :=
  ∃ r, value ts = some (v, r) ∧ Blank r

/-- `= v`. -/
def EqText (value : List TT → Option (Value × List TT)) (v : Value) (ts : List TT) : Prop :=
  ∃ sp r, Begins (.punct '=' sp) r ts ∧ ValueText value v r

/-- The text between the brackets of an inert attribute, and what it says. -/
inductive InertText (value : List TT → Option (Value × List TT)) (env : Env) : InertSays → List TT → Prop
  | skip {r ts : List TT} : HooqText "skip" r ts → Blank r → InertText value env .skip ts
  | skipAll {r ts : List TT} : HooqText "skip_all" r ts → Blank r → InertText value env .skipAll ts
  | method {g ts : List TT} : HooqList "method" g ts → InertText value env (.method g) ts
  | targets {g ts : List TT} {l : List String} : HooqList "hook_targets" g ts → StringsText l g →
      (∀ s ∈ l, KnownTarget s) → InertText value env (.targets l) ts
  | tail {g ts : List TT} {l : List String} : HooqList "tail_expr_idents" g ts → StringsText l g →
      InertText value env (.tail l) ts
  | ignore {g ts : List TT} {l : List String} : HooqList "ignore_tail_expr_idents" g ts → StringsText l g →
      InertText value env (.ignore l) ts
  | results {g ts : List TT} {l : List String} : HooqList "result_types" g ts → StringsText l g →
      InertText value env (.results l) ts
  | macros {g ts : List TT} {x : String} : HooqList "hook_in_macros" g ts → x = "true" ∨ x = "false" →
      WordText x g → InertText value env (.macros (x == "true")) ts
  /-- `hooq::binding(x = v)` or `hooq::var(x = v)`. -/
  | binding {g r ts : List TT} {n x : String} {v : Value} (sp : Span) : HooqList n g ts →
      n = "binding" ∨ n = "var" → Begins (.ident x sp) r g → PlainWord x ∨ x = "unsafe" → EqText value v r →
      InertText value env (.bind x v) ts
  /-- `hooq::x = v`, where `x` is no setting. -/
  | named {r ts : List TT} {x : String} {v : Value} : HooqText x r ts → PlainWord x → x ∉ settingNames →
      EqText value v r → InertText value env (.bind x v) ts
  /-- `::hooq::x = v`, where `x` may be the name of a setting. -/
  | rooted {r r' ts : List TT} {x : String} {v : Value} : ColonsText r' ts → HooqText x r r' → PlainWord x →
      EqText value v r → InertText value env (.bind x v) ts
  /-- `hooq::x = F`, where `x` is a setting and `F` the name of a flavor. -/
  | setting {r ts : List TT} {x : String} {v : Value} {f : Settings} : HooqText x r ts →
      x ∈ ["flavor", "method", "hook_targets", "tail_expr_idents", "result_types", "hook_in_macros", "bindings"] →
      EqText value v r → flavorOf env v = some f → InertText value env (.setting x f) ts

/-- The kinds that the names stand for. -/
def namedTargets (l : List String) : Targets :=
  let has k := l.any fun s => targetNames.any fun t => t.1 == s && t.2.contains k
  { question := has .question, ret := has .ret, tail := has .tail }

/-- Some ignored identifiers more. -/
def moreIgnored (cur : Option (List String)) (l : List String) : Option (List String) := some (cur.getD [] ++ l)

/-- What an attribute adds to what the attributes before it have said. -/
def InertSays.on (env : Env) (i : Inert) : InertSays → Inert
  | .skip => { i with skip := true }
  | .skipAll => { i with skipAll := true }
  | .method ts => { i with method := some (Method.parse env.consume ts) }
  | .targets l => { i with targets := some (namedTargets l) }
  | .tail l => { i with
      tailIdents := some (l.filter fun s => s.toList.head? ≠ some '!')
      ignoreIdents := if bangs l = [] then i.ignoreIdents else moreIgnored i.ignoreIdents (bangs l) }
  | .ignore l => { i with ignoreIdents := moreIgnored i.ignoreIdents l }
  | .results l => { i with resultTypes := some l }
  | .macros b => { i with hookInMacros := some b }
  | .bind x v => { i with bindings := i.bindings.insert x v }
  | .setting x f =>
    let all := x == "flavor"
    { i with
      method := if all || x == "method" then some f.method else i.method
      targets := if all || x == "hook_targets" then some f.targets else i.targets
      tailIdents := if all || x == "tail_expr_idents" then some f.tailIdents else i.tailIdents
      ignoreIdents := if all || x == "tail_expr_idents" then some f.ignoreIdents else i.ignoreIdents
      resultTypes := if all || x == "result_types" then some f.resultTypes else i.resultTypes
      hookInMacros := if all || x == "hook_in_macros" then some f.hookInMacros else i.hookInMacros
      bindings := if all || x == "bindings" then i.bindings.extend f.bindings else i.bindings }

/-- What an attribute says, `none` if it is not a hooq attribute. -/
def AttrText (value : List TT → Option (Value × List TT)) (env : Env) (o : Option InertSays) (ts : List TT) : Prop :=
  match o with
  | some s => InertText value env s ts
  | none => ¬ HooqStart ts

end Hooq
