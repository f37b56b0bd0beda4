import Verif.Model.TomlDoc

/-!
# The release script

`/repo/.github/scripts/sync.rs` keeps the versions in the manifests and the README files of the
repository up to date, or checks that they are.  The parser and printer of TOML, the template
engine, `cargo sort` and the answer of crates.io are parameters.  Simplifications: writing a file
does not fail, paths are compared as strings, and all errors are alike.
-/

namespace Hooq

/-- The readable files, by path.
For /repo/.github/scripts/sync.rs:116-275. -/
abbrev Files := String → Option String

/-- What the script works on: the files and the git tags.
For /repo/.github/scripts/sync.rs:116-294. -/
structure Repo where
  files : Files
  tags : List String

/-- `CrateVersion`, /repo/.github/scripts/sync.rs:50-55; `created` is the time that
`parse_from_rfc3339` reads (line 81). -/
structure CrateVersion where
  num : String
  yanked : Bool
  created : Option Int

/-- What the script calls.  `versions` is the answer of crates.io, lines 62-70; `sort` is `cargo
sort --workspace`, which may change files even if it fails, `sorted` the same with `--check`,
lines 190-202; `tagName` tells whether git accepts a tag name, lines 281-292.
For /repo/.github/scripts/sync.rs:45-294. -/
structure SyncEnv where
  parse : String → Option TomlVal
  print : TomlVal → Option String
  render : String → List (String × String) → Option String
  versions : Option (List CrateVersion)
  sort : Files → Bool × Files
  sorted : Files → Bool
  tagName : String → Bool

/-- `Mode`, /repo/.github/scripts/sync.rs:23-28. -/
inductive SyncMode
  | wip
  | publish
  | addTag
deriving DecidableEq

/-- A part of the script; without a result it has failed, and so does the script
(`anyhow::Result` and `?`).
For /repo/.github/scripts/sync.rs:45-294. -/
def Script (α : Type) := Repo → Option α × Repo

/-- A step and then what follows: `x?` goes on only with a result.
For /repo/.github/scripts/sync.rs:45-294. -/
instance : Monad Script where
  pure a := fun r => (some a, r)
  bind x f := fun r =>
    match x r with
    | (some a, r') => f a r'
    | (none, r') => (none, r')

/-- `std::fs::read_to_string(p)?`.
For /repo/.github/scripts/sync.rs:118, 136, 210, 221, 227. -/
def Script.read (p : String) : Script String := fun r => (r.files p, r)

/-- `std::fs::write(p, s)?`.
For /repo/.github/scripts/sync.rs:175, 234, 251, 270. -/
def Script.write (p s : String) : Script Unit :=
  fun r => (some (), { r with files := fun q => if q = p then some s else r.files q })

/-- `o?`.
For /repo/.github/scripts/sync.rs:121, 147, 165, 201. -/
def Script.need {α : Type} (o : Option α) : Script α := fun r => (o, r)

/-- `return Err(..)` unless the condition holds.
For /repo/.github/scripts/sync.rs:121, 147, 165, 201. -/
def Script.ensure (b : Bool) : Script Unit := fun r => (if b then some () else none, r)

/-- `.as_table()?.get(k)?` for each key, e.g. /repo/.github/scripts/sync.rs:126-133. -/
def TomlVal.lookup : List String → TomlVal → Option TomlVal
  | [], v => some v
  | k :: ks, .table l => (AMap.get? l k).bind (TomlVal.lookup ks)
  | _ :: _, _ => none

/-- The assignment to an entry, /repo/.github/scripts/sync.rs:153 and 171. -/
def TomlVal.assign (s : String) : List String → TomlVal → Option TomlVal
  | [], _ => some (.str s)
  | k :: ks, .table l => (AMap.get? l k).bind fun v => (TomlVal.assign s ks v).map fun v' => .table (AMap.insert l k v')
  | _ :: _, _ => none

/-- One of the two dependencies, /repo/.github/scripts/sync.rs:138-154 and 156-172. -/
def syncEntry (check : Bool) (version krate : String) (c : TomlVal) : Script TomlVal := do
  let path := ["dependencies", krate, "version"]
  let e ← Script.need (c.lookup path)
  if check then do
    let s ← Script.need e.asStr
    Script.ensure (s == version)
    pure c
  else Script.need (c.assign version path)

/-- `sync_sub_crate_versions`, /repo/.github/scripts/sync.rs:116-182. -/
def syncVersions (E : SyncEnv) (check : Bool) : Script String := do
  let w ← Script.read "./Cargo.toml"
  let w ← Script.need (E.parse w)
  let v ← Script.need (w.lookup ["workspace", "package", "version"])
  let version ← Script.need v.asStr
  let c ← Script.read "./hooq/Cargo.toml"
  let c ← Script.need (E.parse c)
  let c ← syncEntry check version "hooq-macros" c
  let c ← syncEntry check version "hooq-helpers" c
  if check then pure version
  else do
    let t ← Script.need (E.print c)
    Script.write "./hooq/Cargo.toml" t
    pure version

/-- `Iterator::max_by_key` (standard library): the last of the greatest.
For /repo/.github/scripts/sync.rs:85. -/
def maxByKey : List (String × Int) → Option (String × Int)
  | [] => none
  | a :: l =>
    match maxByKey l with
    | none => some a
    | some b => if a.2 ≤ b.2 then some b else some a

/-- The closure in `filter_map`, /repo/.github/scripts/sync.rs:75-84. -/
def CrateVersion.entry (v : CrateVersion) : Option (String × Int) :=
  if v.yanked then none else v.created.map fun t => (v.num, t)

/-- `get_published_version`, /repo/.github/scripts/sync.rs:48-89. -/
def publishedVersion (E : SyncEnv) : Option String := do
  let l ← E.versions
  let best ← maxByKey (l.filterMap CrateVersion.entry)
  pure best.1

/-- `cargo_sort`, /repo/.github/scripts/sync.rs:185-205. -/
def cargoSort (E : SyncEnv) (check : Bool) : Script Unit := fun r =>
  if check then (if E.sorted r.files then some () else none, r)
  else (if (E.sort r.files).1 then some () else none, { r with files := (E.sort r.files).2 })

/-- A README file, /repo/.github/scripts/sync.rs:224-235, 241-252 and 259-271. -/
def syncFile (check : Bool) (path text : String) : Script Unit :=
  if check then do
    let old ← Script.read path
    Script.ensure (old == text)
  else Script.write path text

/-- `sync_readme`, /repo/.github/scripts/sync.rs:207-275. -/
def syncReadme (E : SyncEnv) (check : Bool) (version lang : String) : Script Unit := do
  let root ← Script.read ("./docs" ++ lang ++ "/_readme_root.md.template")
  let common ← Script.need (E.render root [("version", version)])
  let github ← Script.read "./docs/_readme_github.md.template"
  let github ← Script.need (E.render github [("common", common)])
  syncFile check ("./docs" ++ lang ++ "/README.md") github
  syncFile check ("./hooq/docs" ++ lang ++ "/README.md") common
  let sub ← Script.read "./docs/_readme_sub_crates.md.template"
  let sub ← Script.need (E.render sub [("common", common)])
  syncFile check ("./hooq-macros/docs" ++ lang ++ "/README.md") sub
  syncFile check ("./hooq-helpers/docs" ++ lang ++ "/README.md") sub

/-- `git_tag`, /repo/.github/scripts/sync.rs:277-297: git refuses a tag that exists. -/
def gitTag (E : SyncEnv) (version : String) : Script Unit := fun r =>
  let tag := "v" ++ version
  if E.tagName tag && !r.tags.contains tag then (some (), { r with tags := tag :: r.tags }) else (none, r)

/-- The version in the README files, /repo/.github/scripts/sync.rs:96-99. -/
def shownVersion (E : SyncEnv) (mode : SyncMode) (current : String) : Script String :=
  match mode with
  | .wip => Script.need (publishedVersion E)
  | .publish | .addTag => pure current

/-- `main`, /repo/.github/scripts/sync.rs:91-114. -/
def syncMain (E : SyncEnv) (check : Bool) (mode : SyncMode) : Script Unit := do
  let current ← syncVersions E check
  let version ← shownVersion E mode current
  cargoSort E check
  syncReadme E check version ""
  syncReadme E check version "/ja"
  if mode = .addTag ∧ check = false then gitTag E current else pure ()

end Hooq
