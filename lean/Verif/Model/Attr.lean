import Verif.Model.Flavor

/-!
# Inert attributes

/repo/hooq-macros/src/impls/inert_attr/parse.rs and mod.rs.
-/

namespace Hooq

/-- Errors of an expansion.  `panic` stands for a Rust panic inside the macro
(`parse_quote!` on tokens that do not parse); `notSource` is raised by the model
when an input already contains a hooked node, which no source code does.  Errors in
templates carry the span they are reported at, and an unknown variable the names of the
bindings that the message lists; spans of the other errors are not kept.
For /repo/hooq-macros/src/impls/inert_attr/parse.rs:123-393,
/repo/hooq-macros/src/impls/method/render/mod.rs:22-87. -/
inductive Err
  | attrForm (p : Path)
  | unknownAttr (p : Path)
  | flavorValue (setting : String)
  | flavorPath (e : FlavorPathErr)
  | tomlLoad (msg : String)
  | flavorNotFound (path : List String) (names : List (List String))
  | badHookTarget (s : String)
  | ignoreFlavorForm
  | stringsParse
  | boolParse
  | bindingParse
  | bindingName
  | afterDollar (sp : Span)
  | noSoFar (sp : Span)
  | unknownVar (name : String) (available : List String) (sp : Span)
  | rootArg (flavors : List (List String))
  | pathsParse
  | panic
  | notSource
deriving DecidableEq, Repr, Inhabited

/-- External facts an expansion depends on: the consume-question feature, `syn`'s
verdict on re-parsing the emitted tokens (`none` is a parse failure, i.e. a panic:
`insertRear` is the end of an atom followed by the tokens, `replaceShape` the shape
of the tokens around an operand with the given end), `syn::parse2::<MetaNameValue>`,
the parser of comma-terminated paths, and the result of
`FlavorStore::with_hooq_toml()`.
For /repo/hooq-macros/src/impls/mod.rs:15-28 and what it calls. -/
structure Env where
  consume : Bool
  insertRear : List TT → Option Rear
  replaceShape : Rear → List TT → Option Shape
  parseNameValue : List TT → Option (Path × Value)
  parsePaths : List TT → Option (List Path) := fun _ => none
  store : Except String FlavorMap

/-- `get_binding_name`, /repo/hooq-macros/src/impls/inert_attr/parse.rs:16-37. -/
def getBindingName (p : Path) : Except Err (Option String) :=
  match p.segs with
  | [] => .ok none
  | s :: rest =>
    if s.ident ≠ "hooq" then .ok none
    else match rest with
      | [] => .ok none
      | [b] => .ok (some b.ident)
      | _ => .error (.attrForm p)

/-- The loop of `parse_terminated` in `Strings::parse`,
/repo/hooq-macros/src/impls/inert_attr/parse.rs:41-51: comma-terminated string literals. -/
def stringsOf : List TT → Option (List String)
  | [] => some []
  | [.lit (.str s) _] => some [s]
  | .lit (.str s) _ :: .punct ',' _ :: rest => (stringsOf rest).map (s :: ·)
  | _ => none

/-- `Strings::parse`, /repo/hooq-macros/src/impls/inert_attr/parse.rs:41-51.  The loop stops at
the end of the input only, so that it fails if an empty group is left. -/
def parseStrings (ts : List TT) : Option (List String) :=
  if dangling ts then none else stringsOf (visible ts)

/-- `LitBool::parse` (library) on the visible tokens.
For /repo/hooq-macros/src/impls/inert_attr/parse.rs:300. -/
def boolOf : List TT → Option Bool
  | [.ident "true" _] => some true
  | [.ident "false" _] => some false
  | _ => none

/-- `syn::parse2::<LitBool>`, used in
/repo/hooq-macros/src/impls/inert_attr/parse.rs:300; `parse2` does not mind empty groups
without delimiters that are left. -/
def parseBool (ts : List TT) : Option Bool := boolOf (visible ts)

/-- `get_flavor_path`, /repo/hooq-macros/src/impls/inert_attr/parse.rs:96-114. -/
def getFlavorPath (v : Value) (setting : String) : Except Err (List String) :=
  match v.view with
  | .path p => (flavorPathOfPath p).mapError .flavorPath
  | .litStr s => (flavorPathOfString s).mapError .flavorPath
  | .other => .error (.flavorValue setting)

/-- `get_flavor`, /repo/hooq-macros/src/impls/inert_attr/parse.rs:116-121. -/
def lookupFlavor (env : Env) (path : List String) : Except Err Settings :=
  match env.store with
  | .error msg => .error (.tomlLoad msg)
  | .ok m => match getFlavor m path with
    | .ok f => .ok f.settings
    | .error names => .error (.flavorNotFound path names)

/-- `get_flavor_path` followed by `get_flavor`.
For /repo/hooq-macros/src/impls/inert_attr/parse.rs:96-121. -/
def flavorOfValue (env : Env) (v : Value) (setting : String) : Except Err Settings := do
  let path ← getFlavorPath v setting
  lookupFlavor env path

/-- `InertAttribute`, /repo/hooq-macros/src/impls/inert_attr/mod.rs:11-22. -/
structure Inert where
  method : Option Method := none
  targets : Option Targets := none
  tailIdents : Option (List String) := none
  ignoreIdents : Option (List String) := none
  resultTypes : Option (List String) := none
  hookInMacros : Option Bool := none
  bindings : AMap Value := []
  skip : Bool := false
  skipAll : Bool := false
deriving Repr, Inhabited

/-- `parse_quote!(hooq::name)`,
/repo/hooq-macros/src/impls/inert_attr/parse.rs:124-147. -/
def hooqPath (name : String) : Path := Path.ofIdents ["hooq", name]

/-- `[v, l].concat()` on an optional list,
/repo/hooq-macros/src/impls/inert_attr/parse.rs:265-270. -/
def appendIgnore (cur : Option (List String)) (l : List String) : Option (List String) :=
  match cur with
  | some v => some (v ++ l)
  | none => some l

/-- One iteration of the loop of `extract_hooq_info_from_attrs`: the new
accumulator and the keep flag
(/repo/hooq-macros/src/impls/inert_attr/parse.rs:160-376, match arms in order; arms
on different `Meta` variants are disjoint, so they are grouped by variant). -/
def inertStep (env : Env) (acc : Inert) (a : Attr) : Except Err (Inert × Bool) :=
  match a with
  | .nv p v =>
    if p = hooqPath "flavor" then do
      let f ← flavorOfValue env v "flavor"
      .ok ({ acc with
        method := some f.method
        targets := some f.targets
        tailIdents := some f.tailIdents
        ignoreIdents := some f.ignoreIdents
        resultTypes := some f.resultTypes
        hookInMacros := some f.hookInMacros
        bindings := acc.bindings.extend f.bindings }, false)
    else if p = hooqPath "method" then do
      let f ← flavorOfValue env v "method"
      .ok ({ acc with method := some f.method }, false)
    else if p = hooqPath "hook_targets" then do
      let f ← flavorOfValue env v "hook_targets"
      .ok ({ acc with targets := some f.targets }, false)
    else if p = hooqPath "tail_expr_idents" then do
      let f ← flavorOfValue env v "tail_expr_idents"
      .ok ({ acc with tailIdents := some f.tailIdents,
                      ignoreIdents := some f.ignoreIdents }, false)
    else if p = hooqPath "ignore_tail_expr_idents" then
      .error .ignoreFlavorForm
    else if p = hooqPath "result_types" then do
      let f ← flavorOfValue env v "result_types"
      .ok ({ acc with resultTypes := some f.resultTypes }, false)
    else if p = hooqPath "hook_in_macros" then do
      let f ← flavorOfValue env v "hook_in_macros"
      .ok ({ acc with hookInMacros := some f.hookInMacros }, false)
    else if p = hooqPath "bindings" then do
      let f ← flavorOfValue env v "bindings"
      .ok ({ acc with bindings := acc.bindings.extend f.bindings }, false)
    else do
      match ← getBindingName p with
      | some b => .ok ({ acc with bindings := acc.bindings.insert b v }, false)
      | none => .ok (acc, true)
  | .list p ts =>
    if p = hooqPath "method" then
      .ok ({ acc with method := some (Method.parse env.consume ts) }, false)
    else if p = hooqPath "hook_targets" then
      match parseStrings ts with
      | none => .error .stringsParse
      | some l => match Targets.parse l with
        | .ok sw => .ok ({ acc with targets := some sw }, false)
        | .error e => .error (.badHookTarget e)
    else if p = hooqPath "tail_expr_idents" then
      match parseStrings ts with
      | none => .error .stringsParse
      | some l =>
        let inc := (splitInclude l).1
        let notInc := (splitInclude l).2
        .ok ({ acc with
          tailIdents := some inc
          ignoreIdents := match acc.ignoreIdents with
            | some v => some (v ++ notInc)
            | none => if notInc.isEmpty then none else some notInc }, false)
    else if p = hooqPath "ignore_tail_expr_idents" then
      match parseStrings ts with
      | none => .error .stringsParse
      | some l => .ok ({ acc with ignoreIdents := appendIgnore acc.ignoreIdents l }, false)
    else if p = hooqPath "result_types" then
      match parseStrings ts with
      | none => .error .stringsParse
      | some l => .ok ({ acc with resultTypes := some l }, false)
    else if p = hooqPath "hook_in_macros" then
      match parseBool ts with
      | none => .error .boolParse
      | some b => .ok ({ acc with hookInMacros := some b }, false)
    else if p = hooqPath "binding" ∨ p = hooqPath "var" then
      match env.parseNameValue ts with
      | none => .error .bindingParse
      | some (q, v) => match q with
        | { leading := false, segs := [{ ident := b, hasArgs := false }] } =>
          .ok ({ acc with bindings := acc.bindings.insert b v }, false)
        | _ => .error .bindingName
    else do
      match ← getBindingName p with
      | some _ => .error (.unknownAttr p)
      | none => .ok (acc, true)
  | .path p =>
    if p = hooqPath "skip" then .ok ({ acc with skip := true }, false)
    else if p = hooqPath "skip_all" then .ok ({ acc with skipAll := true }, false)
    else do
      match ← getBindingName p with
      | some _ => .error (.unknownAttr p)
      | none => .ok (acc, true)

/-- The loop and the `retain` of `extract_hooq_info_from_attrs`,
/repo/hooq-macros/src/impls/inert_attr/parse.rs:160-380: final accumulator and kept
attributes. -/
def extractFrom (env : Env) (acc : Inert) : List Attr → Except Err (Inert × List Attr)
  | [] => .ok (acc, [])
  | a :: rest => do
    let (acc, keep) ← inertStep env acc a
    let (acc, kept) ← extractFrom env acc rest
    .ok (acc, if keep then a :: kept else kept)

/-- `extract_hooq_info_from_attrs`,
/repo/hooq-macros/src/impls/inert_attr/parse.rs:123-393. -/
def extract (env : Env) (attrs : List Attr) : Except Err (Inert × List Attr) :=
  extractFrom env {} attrs

end Hooq
