import Verif.Model.Method

/-!
# Flavors

/repo/hooq-macros/src/impls/flavor/mod.rs, flavor_path.rs, presets/, toml_load/.
-/

namespace Hooq

/-- The settings of a `Flavor` without its sub-flavors,
/repo/hooq-macros/src/impls/flavor/mod.rs:19-30. -/
structure Settings where
  traitUses : List Path
  method : Method
  targets : Targets
  tailIdents : List String
  ignoreIdents : List String
  resultTypes : List String
  hookInMacros : Bool
  bindings : AMap Value
deriving Repr, Inhabited

/-- `Flavor`, /repo/hooq-macros/src/impls/flavor/mod.rs:19-30. -/
inductive Flavor
  | mk (s : Settings) (subs : List (String × Flavor))
deriving Inhabited

/-- Settings of a flavor.
For /repo/hooq-macros/src/impls/flavor/mod.rs:20-30. -/
def Flavor.settings : Flavor → Settings
  | .mk s _ => s

/-- Sub-flavors of a flavor.
For /repo/hooq-macros/src/impls/flavor/mod.rs:20-30. -/
def Flavor.subs : Flavor → AMap Flavor
  | .mk _ l => l

/-- The map inside `FlavorStore`, /repo/hooq-macros/src/impls/flavor/mod.rs:73-76. -/
abbrev FlavorMap := AMap Flavor

/-! ## Flavor paths -/

/-- Errors of `FlavorPath::try_from`.
For /repo/hooq-macros/src/impls/flavor/flavor_path.rs:14-66. -/
inductive FlavorPathErr
  | generic
  | empty
deriving DecidableEq, Repr, Inhabited

/-- `FlavorPath::try_from(&syn::Path)`,
/repo/hooq-macros/src/impls/flavor/flavor_path.rs:14-38. -/
def flavorPathOfPath (p : Path) : Except FlavorPathErr (List String) :=
  p.segs.mapM fun seg =>
    if seg.hasArgs then .error .generic
    else if seg.ident = "" then .error .empty
    else .ok seg.ident

/-- `str::split(c)` on a character list.
For /repo/hooq-macros/src/impls/flavor/flavor_path.rs:53-54. -/
def splitOnChar (c : Char) : List Char → List (List Char)
  | [] => [[]]
  | x :: xs =>
    if x = c then [] :: splitOnChar c xs
    else
      match splitOnChar c xs with
      | [] => [[x]]
      | y :: ys => (x :: y) :: ys

/-- `str::split("::")` on a character list.
For /repo/hooq-macros/src/impls/flavor/flavor_path.rs:53-54. -/
def splitOnColons : List Char → List (List Char)
  | [] => [[]]
  | ':' :: ':' :: xs => [] :: splitOnColons xs
  | x :: xs =>
    match splitOnColons xs with
    | [] => [[x]]
    | y :: ys => (x :: y) :: ys

/-- `FlavorPath::try_from(String)`,
/repo/hooq-macros/src/impls/flavor/flavor_path.rs:48-66. -/
def flavorPathOfString (s : String) : Except FlavorPathErr (List String) :=
  (((splitOnChar '.' s.toList).map splitOnColons).flatten).mapM fun cs =>
    if cs.isEmpty then .error .empty else .ok (String.ofList cs)

/-! ## Lookup -/

/-- The loop over sub-flavors in `get_flavor_inner`,
/repo/hooq-macros/src/impls/flavor/mod.rs:163-167. -/
def Flavor.descend (f : Flavor) : List String → Option Flavor
  | [] => some f
  | n :: path => (f.subs.get? n).bind fun g => g.descend path

/-- `FlavorStore::get_flavor_inner`,
/repo/hooq-macros/src/impls/flavor/mod.rs:159-168. -/
def getFlavorInner (m : FlavorMap) : List String → Option Flavor
  | [] => none
  | n :: path => (m.get? n).bind fun f => f.descend path

mutual
/-- `collect_names`, /repo/hooq-macros/src/impls/flavor/mod.rs:186-194.  Names are
component lists instead of strings joined with `::`. -/
def collectNames (pre : List String) : Flavor → List (List String)
  | .mk _ subs => collectNamesList pre subs
/-- The loops over sub-flavors and over the top-level map,
/repo/hooq-macros/src/impls/flavor/mod.rs:189-201. -/
def collectNamesList (pre : List String) : List (String × Flavor) → List (List String)
  | [] => []
  | (n, f) :: rest => ((pre ++ [n]) :: collectNames (pre ++ [n]) f) ++ collectNamesList pre rest
end

/-- `FlavorStore::all_flavor_names`,
/repo/hooq-macros/src/impls/flavor/mod.rs:185-204. -/
def allFlavorNames (m : FlavorMap) : List (List String) := collectNamesList [] m

/-- `FlavorStore::get_flavor`, /repo/hooq-macros/src/impls/flavor/mod.rs:170-183.
The error carries the list of names that the message prints. -/
def getFlavor (m : FlavorMap) (path : List String) : Except (List (List String)) Flavor :=
  match getFlavorInner m path with
  | some f => .ok f
  | none => .error (allFlavorNames m)

/-! ## Presets -/

/-- Identifier token made by `parse_quote!`.
For /repo/hooq-macros/src/impls/flavor/mod.rs:52-71 and the templates in
/repo/hooq-macros/src/impls/flavor/presets/*.rs. -/
def tkId (s : String) : TT := .ident s .callSite
/-- Punctuation token made by `parse_quote!`.
For /repo/hooq-macros/src/impls/flavor/mod.rs:52-71 and the templates in
/repo/hooq-macros/src/impls/flavor/presets/*.rs. -/
def tkP (c : Char) : TT := .punct c .callSite
/-- Meta variable `$s` in a template.
For /repo/hooq-macros/src/impls/flavor/mod.rs:52-71 and the templates in
/repo/hooq-macros/src/impls/flavor/presets/*.rs. -/
def tkVar (s : String) : List TT := [tkP '$', tkId s]
/-- `::a::b`.
For /repo/hooq-macros/src/impls/flavor/mod.rs:52-71 and the templates in
/repo/hooq-macros/src/impls/flavor/presets/*.rs. -/
def tkAbs (l : List String) : List TT := (l.map fun s => [tkP ':', tkP ':', tkId s]).flatten
/-- `let name = value;`
For /repo/hooq-macros/src/impls/flavor/mod.rs:52-71 and the templates in
/repo/hooq-macros/src/impls/flavor/presets/*.rs. -/
def tkLet (name : String) (value : List TT) : List TT :=
  [tkId "let", tkId name, tkP '='] ++ value ++ [tkP ';']
/-- A parenthesised group.
For /repo/hooq-macros/src/impls/flavor/mod.rs:52-71 and the templates in
/repo/hooq-macros/src/impls/flavor/presets/*.rs. -/
def tkParen (ts : List TT) : TT := .group .paren ts .callSite
/-- A braced group.
For /repo/hooq-macros/src/impls/flavor/mod.rs:52-71 and the templates in
/repo/hooq-macros/src/impls/flavor/presets/*.rs. -/
def tkBrace (ts : List TT) : TT := .group .brace ts .callSite
/-- A string literal.
For /repo/hooq-macros/src/impls/flavor/mod.rs:52-71 and the templates in
/repo/hooq-macros/src/impls/flavor/presets/*.rs. -/
def tkStr (s : String) : TT := .lit (.str s) .callSite

/-- The common head of the preset templates: `let path = $path; let line = $line;
let col = $col; let expr = HELPERS::macro!($source);`, e.g.
/repo/hooq-macros/src/impls/flavor/mod.rs:61-64.  `helpers` is
`get_source_excerpt_helpers_name_space()`, an arbitrary token list. -/
def presetHead (helpers : List TT) (macroName : String) : List TT :=
  tkLet "path" (tkVar "path") ++ tkLet "line" (tkVar "line") ++ tkLet "col" (tkVar "col") ++
  tkLet "expr" (helpers ++ [tkP ':', tkP ':', tkId macroName, tkP '!', tkParen (tkVar "source")])

/-- `default_method`, /repo/hooq-macros/src/impls/flavor/mod.rs:52-71. -/
def defaultMethodTokens (helpers : List TT) : List TT :=
  [tkP '.', tkId "inspect_err", tkParen ([tkP '|', tkId "e", tkP '|'] ++ [tkBrace (
    presetHead helpers "excerpted_pretty_stringify" ++ tkAbs ["std", "eprintln"] ++
    [tkP '!', tkParen [tkStr "[{path}:{line}:{col}] {e:?}\n{expr}"], tkP ';'])])]

/-- `empty_method`, /repo/hooq-macros/src/impls/flavor/presets/empty.rs:28-32. -/
def emptyMethodTokens : List TT := tkVar "expr"

/-- `hook_method`, /repo/hooq-macros/src/impls/flavor/presets/hook.rs:16-22. -/
def hookMethodTokens : List TT :=
  [tkP '.', tkId "hook", tkParen [tkP '|', tkP '|', tkBrace (tkVar "hooq_meta")]]

/-- `log_method`, /repo/hooq-macros/src/impls/flavor/presets/log.rs:45-59. -/
def logMethodTokens (helpers : List TT) : List TT :=
  [tkP '.', tkId "inspect_err", tkParen ([tkP '|', tkId "e", tkP '|'] ++ [tkBrace (
    presetHead helpers "excerpted_pretty_stringify" ++ tkLet "level" (tkVar "level") ++
    tkAbs ["log", "log"] ++
    [tkP '!', tkParen [tkId "level", tkP ',', tkStr "({path}:{line}:{col}) {e}\n{expr}"], tkP ';'])])]

/-- `anyhow_method`, /repo/hooq-macros/src/impls/flavor/presets/anyhow.rs:15-28. -/
def anyhowMethodTokens (helpers : List TT) : List TT :=
  [tkP '.', tkId "with_context", tkParen ([tkP '|', tkP '|'] ++ [tkBrace (
    presetHead helpers "excerpted_pretty_stringify" ++
    [tkId "format", tkP '!', tkParen [tkStr "[{path}:{line}:{col}]\n{expr}"]])])]

/-- `eyre_method`, /repo/hooq-macros/src/impls/flavor/presets/eyre.rs:29-42. -/
def eyreMethodTokens (helpers : List TT) : List TT :=
  [tkP '.', tkId "wrap_err_with", tkParen ([tkP '|', tkP '|'] ++ [tkBrace (
    presetHead helpers "excerpted_pretty_stringify" ++
    [tkId "format", tkP '!', tkParen [tkStr "[{path}:{line}:{col}]\n{expr}"]])])]

/-- `tracing_method`, /repo/hooq-macros/src/impls/flavor/presets/tracing.rs:45-65. -/
def tracingMethodTokens (helpers : List TT) : List TT :=
  [tkP '.', tkId "inspect_err", tkParen ([tkP '|', tkId "e", tkP '|'] ++ [tkBrace (
    presetHead helpers "one_line_stringify" ++ tkAbs ["tracing", "event"] ++
    [tkP '!', tkParen (tkVar "level" ++ [tkP ',', tkId "path", tkP ',', tkId "line", tkP ',',
      tkId "col", tkP ',', tkId "error", tkP '=', tkP '%', tkId "e", tkP ',', tkId "expr", tkP ',']),
     tkP ';'])])]

/-- `Flavor::default`, /repo/hooq-macros/src/impls/flavor/mod.rs:32-50. -/
def defaultSettings (consume : Bool) (helpers : List TT) : Settings where
  traitUses := []
  method := Method.parse consume (defaultMethodTokens helpers)
  targets := ⟨true, true, true⟩
  tailIdents := ["Err"]
  ignoreIdents := ["Ok"]
  resultTypes := ["Result"]
  hookInMacros := true
  bindings := []

/-- `empty_flavor`, /repo/hooq-macros/src/impls/flavor/presets/empty.rs:10-26. -/
def emptySettings (consume : Bool) : Settings where
  traitUses := []
  method := Method.parse consume emptyMethodTokens
  targets := ⟨false, false, false⟩
  tailIdents := []
  ignoreIdents := []
  resultTypes := []
  hookInMacros := false
  bindings := []

/-- Absolute path value such as `::log::Level::Error`.
For /repo/hooq-macros/src/impls/flavor/presets/log.rs:16-43,
/repo/hooq-macros/src/impls/flavor/presets/tracing.rs:16-43. -/
def absPath (l : List String) : Path :=
  { leading := true, segs := l.map fun s => { ident := s } }

/-- Binding value that is an absolute path.  Its text is that of the tokens, here without
the spaces that printing them may put between.
For /repo/hooq-macros/src/impls/flavor/presets/log.rs:16-43,
/repo/hooq-macros/src/impls/flavor/presets/tracing.rs:16-43. -/
def absPathValue (l : List String) : Value :=
  { view := .path (absPath l), text := l.foldr (fun s t => "::" ++ s ++ t) "" }

/-- `log_flavor`/`tracing_flavor`:
/repo/hooq-macros/src/impls/flavor/presets/log.rs:16-43 and
/repo/hooq-macros/src/impls/flavor/presets/tracing.rs:16-43. -/
def levelFlavor (base : Settings) (method : Method) (krate : String)
    (levels : List (String × String)) (dflt : String) : Flavor :=
  .mk { base with method := method,
                  bindings := [("level", absPathValue [krate, "Level", dflt])] }
    (levels.map fun (n, l) =>
      (n, .mk { base with method := method,
                          bindings := [("level", absPathValue [krate, "Level", l])] } []))

/-- Cargo features that add presets,
/repo/hooq-macros/src/impls/flavor/presets/mod.rs:20-39. -/
structure PresetFeatures where
  log : Bool
  anyhow : Bool
  eyre : Bool
  tracing : Bool
deriving DecidableEq, Repr, Inhabited

/-- `preset_flavors`, /repo/hooq-macros/src/impls/flavor/presets/mod.rs:20-39, with
`default_flavor` (presets/default.rs:3-5), `hook_flavor` (presets/hook.rs:7-14),
`anyhow_flavor` (presets/anyhow.rs:7-13), `eyre_flavor` (presets/eyre.rs:7-16) and
`color_eyre_flavor` (presets/eyre.rs:18-27). -/
def presetFlavors (consume : Bool) (helpers : List TT) (ft : PresetFeatures) : FlavorMap :=
  let d := defaultSettings consume helpers
  let mth (ts : List TT) : Method := Method.parse consume ts
  [("default", Flavor.mk d []),
   ("empty", Flavor.mk (emptySettings consume) []),
   ("hook", Flavor.mk { d with method := mth hookMethodTokens } [])]
  ++ (if ft.log then
        [("log", levelFlavor d (mth (logMethodTokens helpers)) "log"
          [("error", "Error"), ("warn", "Warn"), ("info", "Info"), ("debug", "Debug"),
           ("trace", "Trace")] "Error")] else [])
  ++ (if ft.anyhow then
        [("anyhow", Flavor.mk { d with traitUses := [absPath ["anyhow", "Context"]],
                                       method := mth (anyhowMethodTokens helpers) } [])] else [])
  ++ (if ft.eyre then
        [("eyre", Flavor.mk { d with traitUses := [absPath ["eyre", "ContextCompat"],
                                                   absPath ["eyre", "WrapErr"]],
                                     method := mth (eyreMethodTokens helpers) } []),
         ("color_eyre", Flavor.mk { d with traitUses := [absPath ["color_eyre", "eyre", "ContextCompat"],
                                                         absPath ["color_eyre", "eyre", "WrapErr"]],
                                           method := mth (eyreMethodTokens helpers) } [])] else [])
  ++ (if ft.tracing then
        [("tracing", levelFlavor d (mth (tracingMethodTokens helpers)) "tracing"
          [("error", "ERROR"), ("warn", "WARN"), ("info", "INFO"), ("debug", "DEBUG"),
           ("trace", "TRACE")] "ERROR")] else [])

/-! ## hooq.toml -/

/-- The fields of `FlavorTable` without sub-tables,
/repo/hooq-macros/src/impls/flavor/toml_load/mod.rs:13-27. -/
structure TableFields where
  traitUses : List String := []
  method : Option String := none
  hookTargets : Option (List String) := none
  tailIdents : Option (List String) := none
  ignoreIdents : Option (List String) := none
  resultTypes : Option (List String) := none
  hookInMacros : Option Bool := none
  bindings : AMap String := []
deriving Repr, Inhabited

/-- `FlavorTable`, /repo/hooq-macros/src/impls/flavor/toml_load/mod.rs:13-27. -/
inductive Table
  | mk (f : TableFields) (subs : List (String × Table))
deriving Inhabited

/-- Fields of a table.
For /repo/hooq-macros/src/impls/flavor/toml_load/mod.rs:14-27. -/
def Table.fields : Table → TableFields
  | .mk f _ => f
/-- Sub-tables of a table.
For /repo/hooq-macros/src/impls/flavor/toml_load/mod.rs:14-27. -/
def Table.subs : Table → AMap Table
  | .mk _ l => l

/-- The parsers that applying a `hooq.toml` calls: `syn::parse_str::<Path>`,
`syn::parse_str::<TokenStream>`, `syn::parse_str::<Expr>`; and the
consume-question feature.
For /repo/hooq-macros/src/impls/flavor/toml_load/apply.rs:84, 90, 141. -/
structure TomlEnv where
  consume : Bool
  parsePath : String → Option Path
  lex : String → Option (List TT)
  parseExpr : String → Option Value

/-- Errors of `update_flavor_inner`.
For /repo/hooq-macros/src/impls/flavor/toml_load/apply.rs:35-156. -/
inductive TomlErr
  | emptyName
  | overrideEmpty
  | traitUses
  | method
  | hookTargets (s : String)
  | bindings
deriving DecidableEq, Repr, Inhabited

/-- The ignore ident setting that results from the two list fields,
/repo/hooq-macros/src/impls/flavor/toml_load/apply.rs:80, 107-124. -/
def ignoreSetting (tail ignore : Option (List String)) : Option (List String) :=
  let s1 : Option (List String) := match tail with
    | some l => if (splitInclude l).2.isEmpty then none else some (splitInclude l).2
    | none => none
  match ignore with
  | some l => (match s1 with | some v => some (v ++ l) | none => some l)
  | none => s1

/-- Parse the bindings of a table,
/repo/hooq-macros/src/impls/flavor/toml_load/apply.rs:138-146. -/
def parseBindings (env : TomlEnv) : List (String × String) → Option (List (String × Value))
  | [] => some []
  | (k, v) :: l => do
    let v ← env.parseExpr v
    let l ← parseBindings env l
    pure ((k, v) :: l)

/-- The trait uses of a table,
/repo/hooq-macros/src/impls/flavor/toml_load/apply.rs:82-88. -/
def fieldTraitUses (env : TomlEnv) (l : List String) : Except TomlErr (List Path) :=
  match l.mapM env.parsePath with
  | some l => .ok l
  | none => .error .traitUses

/-- The method of a table,
/repo/hooq-macros/src/impls/flavor/toml_load/apply.rs:90-97; `cur` is the old value. -/
def fieldMethod (env : TomlEnv) (m : Option String) (cur : Method) : Except TomlErr Method :=
  match m with
  | some m => (match env.lex m with
    | some ts => .ok (Method.parse env.consume ts)
    | none => .error .method)
  | none => .ok cur

/-- The hook targets of a table,
/repo/hooq-macros/src/impls/flavor/toml_load/apply.rs:99-105. -/
def fieldTargets (l : Option (List String)) (cur : Targets) : Except TomlErr Targets :=
  match l with
  | some l => (match Targets.parse l with
    | .ok sw => .ok sw
    | .error e => .error (.hookTargets e))
  | none => .ok cur

/-- The bindings of a table,
/repo/hooq-macros/src/impls/flavor/toml_load/apply.rs:138-146. -/
def fieldBindings (env : TomlEnv) (b : List (String × String)) (cur : AMap Value) :
    Except TomlErr (AMap Value) :=
  match parseBindings env b with
  | some l => .ok (cur.extend l)
  | none => .error .bindings

/-- The settings part of one iteration of `update_flavor_inner`,
/repo/hooq-macros/src/impls/flavor/toml_load/apply.rs:80-147.  The assignments are
collected in one record; the order of the fallible steps is that of the code. -/
def applyFields (env : TomlEnv) (t : TableFields) (s : Settings) : Except TomlErr Settings := do
  let traitUses ← fieldTraitUses env t.traitUses
  let method ← fieldMethod env t.method s.method
  let targets ← fieldTargets t.hookTargets s.targets
  let bindings ← fieldBindings env t.bindings s.bindings
  .ok { traitUses := traitUses
        method := method
        targets := targets
        tailIdents := match t.tailIdents with
          | some l => (splitInclude l).1
          | none => s.tailIdents
        ignoreIdents := match ignoreSetting t.tailIdents t.ignoreIdents with
          | some l => l
          | none => s.ignoreIdents
        resultTypes := t.resultTypes.getD s.resultTypes
        hookInMacros := t.hookInMacros.getD s.hookInMacros
        bindings := bindings }

mutual
/-- One iteration of `update_flavor_inner` on the flavor entry `flavor`,
/repo/hooq-macros/src/impls/flavor/toml_load/apply.rs:76-152. -/
def applyTable (env : TomlEnv) (flavor : Flavor) : Table → Except TomlErr Flavor
  | .mk fields subs => do
    let s ← applyFields env fields flavor.settings
    let base := Flavor.mk s flavor.subs
    let subs' ← updateFlavors env flavor.subs base subs
    .ok (.mk s subs')
/-- `update_flavor_inner`,
/repo/hooq-macros/src/impls/flavor/toml_load/apply.rs:35-156.  The guard
`!sub_flavors.is_empty()` is left out: with no sub-tables the loop does nothing. -/
def updateFlavors (env : TomlEnv) (m : FlavorMap) (base : Flavor) :
    List (String × Table) → Except TomlErr FlavorMap
  | [] => .ok m
  | (name, t) :: rest => do
    if name = "" then .error .emptyName
    else if name = "empty" then .error .overrideEmpty
    else
      let entry := (m.get? name).getD base
      let f ← applyTable env entry t
      updateFlavors env (m.insert name f) base rest
end

/-- `update_flavors`, /repo/hooq-macros/src/impls/flavor/toml_load/apply.rs:11-18;
a `HooqToml` is its map of top-level tables. -/
def applyToml (env : TomlEnv) (dflt : Settings) (m : FlavorMap) (toml : AMap Table) :
    Except TomlErr FlavorMap :=
  updateFlavors env m (.mk dflt []) toml

end Hooq
