import Verif.Spec.Flavor
import Verif.Spec.Scope
import Verif.Spec.Template

/-!
# The built-in flavors as the reference describes them

/repo/docs/en/hooq-mdbook-en/src/reference/flavors.md.
-/

namespace Hooq

/-! ## Spelling of tokens -/

/-- How a literal is written. -/
def Lit.spelling : Lit → String
  | .str s => "\"" ++ s ++ "\""
  | .int n => toString n
  | .usize n => toString n ++ "usize"
  | .other t => t

/-- The opening delimiter of a group. -/
def Delim.opening : Delim → List String
  | .paren => ["("]
  | .brace => ["{"]
  | .bracket => ["["]
  | .none => []

/-- The closing delimiter of a group. -/
def Delim.closing : Delim → List String
  | .paren => [")"]
  | .brace => ["}"]
  | .bracket => ["]"]
  | .none => []

/-- An absolute path, token by token. -/
def absWords (l : List String) : List String := l.flatMap fun s => [":", ":", s]

/-- How the value of a binding is written; paths without generic arguments token by
token. -/
def Value.words (v : Value) : List String :=
  match v.view with
  | .path p => if p.leading then absWords (p.segs.map (·.ident))
      else [":", ":"].intercalate (p.segs.map fun g => [g.ident])
  | _ => [v.text]

mutual
/-- How a token is written, spans left out. -/
def TT.words : TT → List String
  | .ident s _ => [s]
  | .punct c _ => [String.singleton c]
  | .lit l _ => [l.spelling]
  | .group d ts _ => d.opening ++ wordsOf ts ++ d.closing
  | .exprHole _ => ["$expr"]
  | .sourceHole _ => ["$source"]
  | .valueHole v _ => v.words
  | .bindingsHole _ _ => ["$bindings"]
  | .metaHole _ _ => ["$hooq_meta"]
/-- How a sequence of tokens is written. -/
def wordsOf : List TT → List String
  | [] => []
  | t :: ts => t.words ++ wordsOf ts
end

/-! ## The table -/

/-- What the text of a preset depends on: the position of the target and the name space
of the helper macros. -/
structure Spot where
  path : String
  line : Nat
  col : Nat
  helpers : List String

/-- `let path = ..; let line = ..; let col = ..; let expr = HELPERS::mac!(..);` -/
def Spot.lets (a : Spot) (mac : String) : List String :=
  ["let", "path", "=", "\"" ++ a.path ++ "\"", ";",
   "let", "line", "=", toString a.line ++ "usize", ";",
   "let", "col", "=", toString a.col ++ "usize", ";",
   "let", "expr", "="] ++ a.helpers ++ [":", ":", mac, "!", "(", "$source", ")", ";"]

/-- A built-in flavor: its path, the cargo feature it needs, the traits it imports, its
log level, and the text it puts behind (or, for `empty`, in place of) a target. -/
structure PresetDoc where
  path : List String
  feature : PresetFeatures → Bool
  uses : List (List String)
  level : Option (List String)
  text : Spot → List String

/-- `.inspect_err(|e| { ..; ::log::log!(level, "..") ; })` -/
def logText (lv : List String) (a : Spot) : List String :=
  [".", "inspect_err", "(", "|", "e", "|", "{"] ++ a.lets "excerpted_pretty_stringify" ++
  ["let", "level", "="] ++ absWords lv ++
  [";", ":", ":", "log", ":", ":", "log", "!", "(", "level", ",",
   "\"({path}:{line}:{col}) {e}\n{expr}\"", ")", ";", "}", ")"]

/-- `.inspect_err(|e| { ..; ::tracing::event!(LEVEL, path, line, col, error = %e, expr,); })` -/
def tracingText (lv : List String) (a : Spot) : List String :=
  [".", "inspect_err", "(", "|", "e", "|", "{"] ++ a.lets "one_line_stringify" ++
  [":", ":", "tracing", ":", ":", "event", "!", "("] ++ absWords lv ++
  [",", "path", ",", "line", ",", "col", ",", "error", "=", "%", "e", ",", "expr", ",", ")",
   ";", "}", ")"]

/-- `.NAME(|| { ..; format!("..") })` -/
def contextText (name : String) (a : Spot) : List String :=
  [".", name, "(", "|", "|", "{"] ++ a.lets "excerpted_pretty_stringify" ++
  ["format", "!", "(", "\"[{path}:{line}:{col}]\n{expr}\"", ")", "}", ")"]

/-- The row of a flavor that logs. -/
def logDoc (sub : List String) (lv : String) : PresetDoc :=
  ⟨"log" :: sub, (·.log), [], some ["log", "Level", lv], logText ["log", "Level", lv]⟩

/-- The row of a flavor that traces. -/
def tracingDoc (sub : List String) (lv : String) : PresetDoc :=
  ⟨"tracing" :: sub, (·.tracing), [], some ["tracing", "Level", lv],
   tracingText ["tracing", "Level", lv]⟩

/-- The built-in flavors. -/
def presetDocs : List PresetDoc :=
  [⟨["default"], fun _ => true, [], none, fun a =>
      [".", "inspect_err", "(", "|", "e", "|", "{"] ++ a.lets "excerpted_pretty_stringify" ++
      [":", ":", "std", ":", ":", "eprintln", "!", "(",
       "\"[{path}:{line}:{col}] {e:?}\n{expr}\"", ")", ";", "}", ")"]⟩,
   ⟨["empty"], fun _ => true, [], none, fun _ => ["$expr"]⟩,
   ⟨["hook"], fun _ => true, [], none, fun _ =>
      [".", "hook", "(", "|", "|", "{", "$hooq_meta", "}", ")"]⟩,
   logDoc [] "Error", logDoc ["error"] "Error", logDoc ["warn"] "Warn", logDoc ["info"] "Info",
   logDoc ["debug"] "Debug", logDoc ["trace"] "Trace",
   ⟨["anyhow"], (·.anyhow), [["anyhow", "Context"]], none, contextText "with_context"⟩,
   ⟨["eyre"], (·.eyre), [["eyre", "ContextCompat"], ["eyre", "WrapErr"]], none,
    contextText "wrap_err_with"⟩,
   ⟨["color_eyre"], (·.eyre),
    [["color_eyre", "eyre", "ContextCompat"], ["color_eyre", "eyre", "WrapErr"]], none,
    contextText "wrap_err_with"⟩,
   tracingDoc [] "ERROR", tracingDoc ["error"] "ERROR", tracingDoc ["warn"] "WARN",
   tracingDoc ["info"] "INFO", tracingDoc ["debug"] "DEBUG", tracingDoc ["trace"] "TRACE"]

/-- The path is absolute, has exactly these names, and no generic arguments. -/
def Path.IsAbs (p : Path) (l : List String) : Prop :=
  p.leading = true ∧ p.segs.map (·.ident) = l ∧ ∀ g ∈ p.segs, g.hasArgs = false

/-- The text of such a path. -/
def absText : List String → String
  | [] => ""
  | x :: l => "::" ++ x ++ absText l

/-- No attribute at or above a position sets the hook targets, the tail or ignored
names, or the result types. -/
def PlainSettings (env : Env) (up : List Data) : Prop :=
  ∀ d ∈ up, ∀ a ∈ d.seen, targetsOf env a = none ∧ tailIdentsOf env a = none ∧
    ignoreOf env a = .keep ∧ resultTypesOf env a = none

/-- No attribute at or above a position sets the method or the binding `level`. -/
def PlainMethod (env : Env) (up : List Data) : Prop :=
  ∀ d ∈ up, ∀ a ∈ d.seen, methodOf env a = none ∧ bindingOf env "level" a = none

/-- The callee is a path that ends in the name. -/
def CalleeEnds (p : Option Path) (n : String) : Prop :=
  ∃ q g, p = some q ∧ q.segs.getLast? = some g ∧ g.ident = n

/-- The innermost function around a position is declared to return a `Result`. -/
def InResultFn (up : List Data) : Prop :=
  ∃ f, innermostFn up = some f ∧ f.output.EndsIn ["Result"]

end Hooq
