import Verif.Model.Syntax

/-!
# Hook methods and hook target switches

/repo/hooq-macros/src/impls/method/mod.rs and the value types of
/repo/hooq-macros/src/impls/inert_attr/context.rs.
-/

namespace Hooq

/-- `Method`, /repo/hooq-macros/src/impls/method/mod.rs:9-13.  `exc` is the
optional `!` consume marker, `dot` the span of the `.` token.  Simplification: the
span of the `!` token is not kept. -/
inductive Method
  | insert (dot : Span) (ts : List TT) (exc : Bool)
  | replace (ts : List TT) (exc : Bool)
deriving Repr, Inhabited

/-- Template of a method; the or-pattern in
/repo/hooq-macros/src/impls/method/render/mod.rs:289. -/
def Method.template : Method → List TT
  | .insert _ ts _ | .replace ts _ => ts

/-- Consume marker of a method.
For /repo/hooq-macros/src/impls/method/mod.rs:10-14. -/
def Method.exc : Method → Bool
  | .insert _ _ e | .replace _ e => e

/-- Mode of a method.
For /repo/hooq-macros/src/impls/method/mod.rs:10-14. -/
def Method.mode : Method → Mode
  | .insert _ _ _ => .insert
  | .replace _ _ => .replace

/-- Is the token the punctuation `c`?
For /repo/hooq-macros/src/impls/method/mod.rs:16-76. -/
def TT.isPunct (c : Char) : TT → Bool
  | .punct c' _ => c' == c
  | _ => false

/-- `split_tail_exclamation`, /repo/hooq-macros/src/impls/method/mod.rs:59-76
(only compiled with the consume-question feature). -/
def splitTailExclamation (ts : List TT) : List TT × Bool :=
  match ts.getLast? with
  | some t => if t.isPunct '!' then (ts.dropLast, true) else (ts, false)
  | none => (ts, false)

mutual
/-- The tokens that `syn`'s cursor comes across (library): groups without delimiters, which
other macros put around their arguments, are entered.  An empty one stays.
For /repo/hooq-macros/src/impls/method/mod.rs:16-76. -/
def TT.opened : TT → List TT
  | .group .none [] sp => [.group .none [] sp]
  | .group .none (t :: ts) _ => openedAll (t :: ts)
  | t => [t]
/-- The same for a sequence of tokens.
For /repo/hooq-macros/src/impls/method/mod.rs:16-76. -/
def openedAll : List TT → List TT
  | [] => []
  | t :: ts => t.opened ++ openedAll ts
end

/-- An empty group without delimiters.
For /repo/hooq-macros/src/impls/method/mod.rs:16-76. -/
def TT.isVoid : TT → Bool
  | .group .none [] _ => true
  | _ => false

/-- The tokens that `syn` gets from its cursor.
For /repo/hooq-macros/src/impls/method/mod.rs:16-76. -/
def visible (ts : List TT) : List TT := (openedAll ts).filter fun t => !t.isVoid

/-- `ParseBuffer::is_empty` (library) fails after the last visible token: an empty group
without delimiters follows.
For /repo/hooq-macros/src/impls/method/mod.rs:16-76. -/
def dangling (ts : List TT) : Bool := ((openedAll ts).getLast?.map TT.isVoid).getD false

mutual
/-- The cursor at the first visible token of a token: `none` if there is none.
For /repo/hooq-macros/src/impls/method/mod.rs:16-76. -/
def TT.entered : TT → Option (List TT)
  | .group .none ts _ => enteredAll ts
  | t => some [t]
/-- The same for a sequence of tokens, with what follows.
For /repo/hooq-macros/src/impls/method/mod.rs:16-76. -/
def enteredAll : List TT → Option (List TT)
  | [] => none
  | t :: ts =>
    match t.entered with
    | some l => some (l ++ ts)
    | none => enteredAll ts
end

/-- `Method::parse`, /repo/hooq-macros/src/impls/method/mod.rs:15-49; `consume` is
the consume-question feature.  Parsing cannot fail.  `input.peek(Token![.])` looks
at the first punctuation character only, and into groups without delimiters; reading the `.`
then leaves these groups. -/
def Method.parse (consume : Bool) (ts : List TT) : Method :=
  match enteredAll ts with
  | some (.punct '.' sp :: rest) =>
    if consume then
      let (ts, exc) := splitTailExclamation rest
      .insert sp ts exc
    else .insert sp rest false
  | _ =>
    if consume then
      let (ts, exc) := splitTailExclamation ts
      .replace ts exc
    else .replace ts false

/-- `HookTargetSwitch`, /repo/hooq-macros/src/impls/inert_attr/context.rs:135-140. -/
structure Targets where
  question : Bool
  ret : Bool
  tail : Bool
deriving DecidableEq, Repr, Inhabited

/-- `HookInfo::is_hook_target`,
/repo/hooq-macros/src/impls/inert_attr/context.rs:380-386. -/
def Targets.has (t : Targets) : Kind → Bool
  | .question => t.question
  | .ret => t.ret
  | .tail => t.tail

/-- Loop of `HookTargetSwitch::try_from`,
/repo/hooq-macros/src/impls/inert_attr/context.rs:152-166. -/
def Targets.parseFrom (sw : Targets) : List String → Except String Targets
  | [] => .ok sw
  | s :: l =>
    if s = "?" ∨ s = "question" then parseFrom { sw with question := true } l
    else if s = "return" then parseFrom { sw with ret := true } l
    else if s = "tail_expr" ∨ s = "tail expr" ∨ s = "tailexpr" ∨ s = "tailExpr" then
      parseFrom { sw with tail := true } l
    else if s = "all" then parseFrom { question := true, ret := true, tail := true } l
    else .error s

/-- `HookTargetSwitch::try_from`,
/repo/hooq-macros/src/impls/inert_attr/context.rs:142-168. -/
def Targets.parse (l : List String) : Except String Targets :=
  Targets.parseFrom { question := false, ret := false, tail := false } l

/-- `Strings::split_include_or_not_include`,
/repo/hooq-macros/src/impls/inert_attr/parse.rs:53-68; the same function is in
/repo/hooq-macros/src/impls/flavor/toml_load/apply.rs:20-33. -/
def splitInclude : List String → List String × List String
  | [] => ([], [])
  | s :: l =>
    let (inc, exc) := splitInclude l
    match s.toList with
    | '!' :: rest => (inc, String.ofList rest :: exc)
    | _ => (s :: inc, exc)

/-- `Counter`, /repo/hooq-macros/src/impls/inert_attr/context.rs:32-46.
Simplification: `usize` overflow is not modelled. -/
structure Counter where
  question : Nat := 0
  ret : Nat := 0
  tail : Nat := 0
deriving DecidableEq, Repr, Inhabited

/-- `Counter::count_up`, /repo/hooq-macros/src/impls/inert_attr/context.rs:48-54. -/
def Counter.countUp (c : Counter) : Kind → Counter
  | .question => { c with question := c.question + 1 }
  | .ret => { c with ret := c.ret + 1 }
  | .tail => { c with tail := c.tail + 1 }

/-- `Counter::get_count`, /repo/hooq-macros/src/impls/inert_attr/context.rs:56-62. -/
def Counter.get (c : Counter) : Kind → Nat
  | .question => c.question
  | .ret => c.ret
  | .tail => c.tail

/-- `Display for HookTargetKind`,
/repo/hooq-macros/src/impls/inert_attr/context.rs:22-30. -/
def Kind.display : Kind → String
  | .question => "?"
  | .ret => "return"
  | .tail => "tail expr"

end Hooq
