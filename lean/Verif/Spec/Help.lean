import Verif.Spec.AttrForm
import Verif.Spec.Unwrap

/-!
# The help text for inert attributes, read as a list of formats
-/

namespace Hooq

/-- String literals with commas between them. -/
inductive PlainStrings : List String → List TT → Prop
  | nil : PlainStrings [] []
  | one (s : String) (sp : Span) : PlainStrings [s] [.lit (.str s) sp]
  | cons (s : String) (sp sp' : Span) {l : List String} {ts : List TT} : PlainStrings l ts →
      PlainStrings (s :: l) (.lit (.str s) sp :: .punct ',' sp' :: ts)

/-- String literals with commas between them, and perhaps groups without delimiters. -/
def StringsText (l : List String) (ts : List TT) : Prop := ∃ us, Unwraps true ts us ∧ PlainStrings l us

/-- The word alone, and perhaps groups without delimiters. -/
def WordText (x : String) (ts : List TT) : Prop := ∃ sp, Unwraps false ts [.ident x sp]

/-- The attribute is written as the line of the help text says.  What a line shows in
backticks is an example of what may stand there: any method, any names of targets in quotes,
any identifier, any name and value.  The names of flavors are those of existing ones. -/
inductive WrittenAs (env : Env) : String → Attr → Prop
  | method (ts : List TT) :
      WrittenAs env "- #[hooq::method(/* e.g. `.method(...)` */)]" (.list (hooqPath "method") ts)
  | hookTargets {l : List String} {ts : List TT} : (∀ s ∈ l, KnownTarget s) → StringsText l ts →
      WrittenAs env "- #[hooq::hook_targets(/* e.g. `\"return\", \"?\"` */)]" (.list (hooqPath "hook_targets") ts)
  | tailIdents (x : String) (sp : Span) :
      WrittenAs env "- #[hooq::tail_expr_idents(/* e.g. `Err` */)]"
        (.list (hooqPath "tail_expr_idents") [.ident x sp])
  | ignoreIdents (x : String) (sp : Span) :
      WrittenAs env "- #[hooq::ignore_tail_expr_idents(/* e.g. `Ok` */)]"
        (.list (hooqPath "ignore_tail_expr_idents") [.ident x sp])
  | resultTypes (x : String) (sp : Span) :
      WrittenAs env "- #[hooq::result_types(/* e.g. `XxxResult` */)]"
        (.list (hooqPath "result_types") [.ident x sp])
  | hookInMacros {x : String} {ts : List TT} : x = "true" ∨ x = "false" → WordText x ts →
      WrittenAs env "- #[hooq::hook_in_macros(/* `true` or `false` */)]"
        (.list (hooqPath "hook_in_macros") ts)
  | binding {x : String} {v : Value} {ts : List TT} : env.parseNameValue ts = some (Path.ofIdents [x], v) →
      WrittenAs env "- #[hooq::binding(xxx = /* e.g. `42` */)] // xxx is param name"
        (.list (hooqPath "binding") ts)
  | alternative {x : String} (v : Value) : x ∉ settingNames →
      WrittenAs env "- #[hooq::xxx = /* e.g. `42` */] // alternative syntax for binding" (.nv (hooqPath x) v)
  | skip : WrittenAs env "- #[hooq::skip]" (.path (hooqPath "skip"))
  | skipAll : WrittenAs env "- #[hooq::skip_all]" (.path (hooqPath "skip_all"))
  | setting {line x : String} {v : Value} {f : Settings} :
      (line, x) ∈ [("  - flavor", "flavor"), ("  - method", "method"), ("  - hook_targets", "hook_targets"),
        ("  - tail_expr_idents // ignore_tail_expr_idents is included here", "tail_expr_idents"),
        ("  - result_types", "result_types"), ("  - hook_in_macros", "hook_in_macros"),
        ("  - bindings", "bindings")] →
      flavorOf env v = some f → WrittenAs env line (.nv (hooqPath x) v)

/-- The three lines whose examples are identifiers without quotes. -/
def unquotedLines : List String :=
  ["- #[hooq::tail_expr_idents(/* e.g. `Err` */)]",
   "- #[hooq::ignore_tail_expr_idents(/* e.g. `Ok` */)]",
   "- #[hooq::result_types(/* e.g. `XxxResult` */)]"]

/-- Accepted forms that no line shows. -/
inductive NotShown (env : Env) : Attr → Prop
  /-- Strings for those three. -/
  | strings {n : String} {l : List String} {ts : List TT} :
      n ∈ ["tail_expr_idents", "ignore_tail_expr_idents", "result_types"] → StringsText l ts →
      NotShown env (.list (hooqPath n) ts)
  /-- `var` for `binding`. -/
  | var {x : String} {v : Value} {ts : List TT} : env.parseNameValue ts = some (Path.ofIdents [x], v) →
      NotShown env (.list (hooqPath "var") ts)
  /-- A binding with a leading `::` or generic arguments in the path. -/
  | odd {p : Path} (v : Value) : p.IsHooqPair → (∀ x, p ≠ hooqPath x) → NotShown env (.nv p v)

end Hooq
