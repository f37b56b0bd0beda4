import Verif.Model.Cache
import Verif.Model.Exports
import Verif.Model.Spliced
import Verif.Spec.Metas
import Verif.Spec.Presets

/-!
# Which names a hook uses, and which a project has

Absolute paths (`::a::b`) in the tokens of a hook, and what they stand for in a project: `::a` is the
crate that the project knows under the name `a`.
-/

namespace Hooq

/-! ## Absolute paths in code -/

/-- A token, as far as paths are concerned. -/
inductive Word
  | name (s : String)
  | colon
  | other
deriving DecidableEq

mutual
/-- The words of a token; `hole` gives those of spliced code. -/
def TT.scan (hole : TT → List Word) : TT → List Word
  | .ident s _ => [if s ∈ otherKeywords then .other else .name s]
  | .punct c _ => [if c = ':' then .colon else .other]
  | .lit _ _ => [.other]
  | .group _ ts _ => .other :: (scanAll hole ts ++ [.other])
  | .exprHole sp => hole (.exprHole sp)
  | .sourceHole sp => hole (.sourceHole sp)
  | .valueHole v sp => hole (.valueHole v sp)
  | .bindingsHole l sp => hole (.bindingsHole l sp)
  | .metaHole m sp => hole (.metaHole m sp)
/-- The words of a sequence of tokens. -/
def scanAll (hole : TT → List Word) : List TT → List Word
  | [] => []
  | t :: ts => t.scan hole ++ scanAll hole ts
end

/-- The words of spliced code.  It is an expression by itself, whatever is before and behind.  Of
values the paths count; the user's code and the values in `$bindings` and `$hooq_meta` do not.
`src` is the text of the source in `$hooq_meta`. -/
def TT.spliced (src : String) : TT → List Word
  | .valueHole v _ => match v.view with
    | .path p => if p.leading then .other :: (p.segs.flatMap fun g => [.colon, .colon, .name g.ident]) ++ [.other]
      else [.other]
    | _ => [.other]
  | .bindingsHole l _ => .other :: scanAll (fun _ => [.other]) (bindingsTokens l) ++ [.other]
  | .metaHole m _ => .other :: scanAll (fun _ => [.other]) (metaTokens src m) ++ [.other]
  | _ => [.other]

/-- The names in `::a::b::c`, as long as it goes on. -/
def pathNames : List Word → List String
  | .colon :: .colon :: .name x :: r => x :: pathNames r
  | _ => []

/-- The absolute paths: a `::` begins one if no name is directly before it. -/
def absolutePaths (behindName : Bool) : List Word → List (List String)
  | .colon :: .colon :: .name x :: r =>
    if behindName then absolutePaths true r else (x :: pathNames r) :: absolutePaths true r
  | .name _ :: r => absolutePaths true r
  | .colon :: r => absolutePaths false r
  | .other :: r => absolutePaths false r
  | [] => []

/-- The absolute paths in the tokens of a hook. -/
def HookData.names (src : String) (h : HookData) : List (List String) :=
  absolutePaths false (scanAll (TT.spliced src) h.toks)

/-! ## Names in a project -/

/-- A project: the package that it knows under a name, and what is in packages that are not of
the repository. -/
structure Project where
  dep : String → Option String
  lib : String → List String → Prop

/-- The absolute path stands for something. -/
def Project.Has (P : Project) : List String → Prop
  | [] => False
  | x :: r => ∃ pkg, P.dep x = some pkg ∧
    match exportsOf pkg with
    | some l => r ∈ l
    | none => P.lib pkg r

/-- `proc_macro_crate::crate_name` tells the truth: what it finds is there under that name, and
what it does not find is not there.  Names of crates are identifiers,
and other packages have no items of the names that the code behind hooks uses. -/
structure Project.Found (P : Project) (find : String → Option FoundCrate) : Prop where
  word : ∀ pkg n, find pkg = some (.name n) → underscores n ∉ otherKeywords
  named : ∀ pkg n, find pkg = some (.name n) → P.dep (underscores n) = some pkg
  absent : ∀ pkg, find pkg = none → ∀ x, P.dep x ≠ some pkg
  only : ∀ pkg r, P.lib pkg r → r ≠ ["HooqMeta"] ∧ r ≠ ["BindingPayload"] ∧ r.head? ≠ some "source_excerpt_helpers"

/-- The helper macros can be named in the project: it knows `hooq` under any name but `hooq_macros`; or it
has no `hooq`, but `hooq-macros` under its own name; or it is `hooq` itself, in a place where
`hooq` is in scope (as in its own examples). -/
def Project.HelpersOk (P : Project) (find : String → Option FoundCrate) : Prop :=
  (∃ n, find "hooq" = some (.name n) ∧ underscores n ≠ "hooq_macros") ∨
  (find "hooq" = none ∧ ∃ n, find "hooq-macros" = some (.name n) ∧ underscores n = "hooq_macros") ∨
  (find "hooq" = some .itself ∧ P.dep "hooq" = some "hooq")

/-- The module of the helper macros, as a path. -/
def helperNames (crate : String) : List String :=
  if crate = "hooq_macros" then [crate] else [crate, "source_excerpt_helpers"]

/-- The helper macro that the hooks of a built-in flavor call, if any. -/
def calledMacro (doc : PresetDoc) : Option String :=
  match doc.path.head? with
  | some "empty" => none
  | some "hook" => none
  | some "tracing" => some "one_line_stringify"
  | _ => some "excerpted_pretty_stringify"

/-- The names that the hooks of a built-in flavor use from other packages, in any case. -/
def foreignNames (doc : PresetDoc) : List (List String) :=
  (match doc.path.head? with
   | some "default" => [["std", "eprintln"]]
   | some "hook" => [["std", "collections", "HashMap", "from"]]
   | some "log" => [["log", "log"]]
   | some "tracing" => [["tracing", "event"]]
   | _ => []) ++ doc.level.toList

/-- The names from `std` that `$bindings` uses for every binding. -/
def payloadNames : List (List String) :=
  [["std", "string", "ToString", "to_string"], ["std", "rc", "Rc"], ["std", "any", "Any"], ["std", "rc", "Rc", "new"]]

end Hooq
