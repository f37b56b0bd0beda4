import Verif.Model.Attr
import Verif.Spec.Flavor
import Verif.Spec.Unwrap

/-!
# How the arguments of `#[hooq(..)]` may be written
-/

namespace Hooq

/-- The words that may not stand in a path of the arguments. -/
def otherKeywords : List String :=
  ["_", "abstract", "as", "async", "await", "become", "box", "break", "const", "continue", "do", "dyn", "else",
   "enum", "extern", "false", "final", "fn", "for", "if", "impl", "in", "let", "loop", "macro", "match", "mod",
   "move", "mut", "override", "priv", "pub", "ref", "return", "static", "struct", "trait", "true", "try", "type",
   "typeof", "unsafe", "unsized", "use", "virtual", "where", "while", "yield"]

/-- A word that may stand in a path of the arguments. -/
def PathWord (x : String) : Prop := x ≠ "" ∧ x ∉ otherKeywords

/-- The text `ts` begins with the token `t`, perhaps in groups without delimiters; then comes `r`. -/
abbrev Begins (t : TT) (r ts : List TT) : Prop := Enters ts (t :: r)

/-- `::`, then `r`. -/
def ColonsText (r ts : List TT) : Prop := ∃ sp1 sp2 r', Begins (.punct ':' sp1) r' ts ∧ Begins (.punct ':' sp2) r r'

/-- Only empty groups without delimiters. -/
def Blank (ts : List TT) : Prop := ∀ us, ¬ Enters ts us

/-- The words with `::` between them, then `r`. -/
inductive WordsText : List String → (r ts : List TT) → Prop
  | one {x : String} {r ts : List TT} (sp : Span) : PathWord x → Begins (.ident x sp) r ts → WordsText [x] r ts
  | cons {x : String} {l : List String} {r r1 r2 ts : List TT} (sp : Span) : PathWord x →
      Begins (.ident x sp) r1 ts → ColonsText r2 r1 → WordsText l r r2 → WordsText (x :: l) r ts

/-- What an argument says. -/
inductive RootArg
  | flavor (names : List String)
  | uses (paths : List Path)

/-- A string literal as a value, then `r`.  If something follows, it must not be in a group
without delimiters. -/
def StringText (s : String) (r ts : List TT) : Prop :=
  ∃ sp, ts = .lit (.str s) sp :: r ∨ r = [] ∧ Begins (.lit (.str s) sp) [] ts

/-- An argument and its text, then `r`. -/
inductive ArgText (env : Env) : RootArg → (r ts : List TT) → Prop
  | path {l : List String} {r ts : List TT} : WordsText l r ts → ArgText env (.flavor l) r ts
  | rooted {l : List String} {r r' ts : List TT} : ColonsText r' ts → WordsText l r r' →
      ArgText env (.flavor l) r ts
  | unsafe_ {r ts : List TT} (sp : Span) : Begins (.ident "unsafe" sp) r ts → ArgText env (.flavor ["unsafe"]) r ts
  | uses {x : String} {d : Delim} {g r ts : List TT} {l : List Path} (sp1 sp2 : Span) :
      x = "trait_use" ∨ x = "trait_uses" → Begins (.ident x sp1) (.group d g sp2 :: r) ts → d ≠ .none →
      env.parsePaths g = some l → ArgText env (.uses l) r ts
  | named {s : String} {l : List String} {r r1 r2 ts : List TT} (sp1 sp2 : Span) :
      Begins (.ident "flavor" sp1) r1 ts → Begins (.punct '=' sp2) r2 r1 → StringText s r r2 →
      SpelledAs s.toList (l.map String.toList) → ArgText env (.flavor l) r ts

/-- The arguments with commas between them, and perhaps one behind. -/
inductive ArgsText (env : Env) : List RootArg → List TT → Prop
  | nil : ArgsText env [] []
  | one {a : RootArg} {ts : List TT} : ArgText env a [] ts → ArgsText env [a] ts
  | cons {a : RootArg} {l : List RootArg} {r r' ts : List TT} (sp : Span) : ArgText env a r ts →
      Begins (.punct ',' sp) r' r → ArgsText env l r' → ArgsText env (a :: l) ts

/-- The flavor of the arguments: the last one. -/
def argsFlavor : List RootArg → Option (List String)
  | [] => none
  | .flavor n :: l => (argsFlavor l).or (some n)
  | .uses _ :: l => argsFlavor l

/-- The trait paths of the arguments, in order. -/
def argsUses : List RootArg → List Path
  | [] => []
  | .flavor _ :: l => argsUses l
  | .uses ps :: l => ps ++ argsUses l

/-- What is assumed of the reader of values: what it reads as a string is a
string literal, and it reads a string literal in front of a comma or the end. -/
structure ReadsStrings (value : List TT → Option (Value × List TT)) : Prop where
  literal : ∀ {ts v r s}, value ts = some (v, r) → v.view = .litStr s → StringText s r ts
  reads : ∀ {s r ts}, StringText s r ts → (r = [] ∨ ∃ sp r', Begins (.punct ',' sp) r' r) →
    ∃ v, value ts = some (v, r) ∧ v.view = .litStr s

end Hooq
