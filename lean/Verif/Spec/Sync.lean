import Verif.Model.Sync

/-!
# What the release script is for

/repo/docs/CONTRIBUTING.md:46-63: the versions of the three crates agree, the manifests are sorted,
and the README files are those that the templates give.
-/

namespace Hooq

/-- The text `s` stands under the keys `ks`. -/
inductive Stands (s : String) : List String → TomlVal → Prop
  | here : Stands s [] (.str s)
  | under {k ks l v} : l.find? (fun e => e.1 == k) = some (k, v) → Stands s ks v → Stands s (k :: ks) (.table l)

/-- The text `s` stands under the keys `ks` in the TOML file `p`. -/
def StandsIn (E : SyncEnv) (fs : Files) (p : String) (ks : List String) (s : String) : Prop :=
  ∃ t v, fs p = some t ∧ E.parse t = some v ∧ Stands s ks v

/-- `s` is the newest version on crates.io that was not withdrawn; of equally new ones the last
one listed.  Versions without a readable date do not count. -/
def Newest (E : SyncEnv) (s : String) : Prop :=
  ∃ before after t, E.versions = some (before ++ ⟨s, false, some t⟩ :: after) ∧
    (∀ n u, ⟨n, false, some u⟩ ∈ before → u ≤ t) ∧ (∀ n u, ⟨n, false, some u⟩ ∈ after → u < t)

/-- The version that the README files show: before a release still the published one. -/
def Shows (E : SyncEnv) (mode : SyncMode) (version shown : String) : Prop :=
  match mode with
  | .wip => Newest E shown
  | .publish | .addTag => shown = version

/-- The README files of one language. -/
def ReadmesOf (E : SyncEnv) (fs : Files) (shown lang : String) : Prop :=
  ∃ root common github front sub back,
    fs ("./docs" ++ lang ++ "/_readme_root.md.template") = some root ∧
    fs "./docs/_readme_github.md.template" = some github ∧
    fs "./docs/_readme_sub_crates.md.template" = some sub ∧
    E.render root [("version", shown)] = some common ∧
    E.render github [("common", common)] = some front ∧
    E.render sub [("common", common)] = some back ∧
    fs ("./docs" ++ lang ++ "/README.md") = some front ∧
    fs ("./hooq/docs" ++ lang ++ "/README.md") = some common ∧
    fs ("./hooq-macros/docs" ++ lang ++ "/README.md") = some back ∧
    fs ("./hooq-helpers/docs" ++ lang ++ "/README.md") = some back

/-- The repository is in order, with this version. -/
def InSync (E : SyncEnv) (mode : SyncMode) (version : String) (fs : Files) : Prop :=
  StandsIn E fs "./Cargo.toml" ["workspace", "package", "version"] version ∧
  (∀ krate ∈ ["hooq-macros", "hooq-helpers"],
    StandsIn E fs "./hooq/Cargo.toml" ["dependencies", krate, "version"] version) ∧
  E.sorted fs = true ∧
  ∃ shown, Shows E mode version shown ∧ ∀ lang ∈ ["", "/ja"], ReadmesOf E fs shown lang

/-- Something stands under the keys. -/
inductive Has : List String → TomlVal → Prop
  | here {v} : Has [] v
  | under {k ks l v} : l.find? (fun e => e.1 == k) = some (k, v) → Has ks v → Has (k :: ks) (.table l)

/-- The templates of one language are there and can be filled in. -/
def Fills (E : SyncEnv) (fs : Files) (shown lang : String) : Prop :=
  ∃ root common github sub,
    fs ("./docs" ++ lang ++ "/_readme_root.md.template") = some root ∧
    fs "./docs/_readme_github.md.template" = some github ∧
    fs "./docs/_readme_sub_crates.md.template" = some sub ∧
    E.render root [("version", shown)] = some common ∧
    (∃ front, E.render github [("common", common)] = some front) ∧
    ∃ back, E.render sub [("common", common)] = some back

/-- What the script needs to bring the repository in order. -/
def Ready (E : SyncEnv) (mode : SyncMode) (version : String) (r : Repo) : Prop :=
  StandsIn E r.files "./Cargo.toml" ["workspace", "package", "version"] version ∧
  (∃ t v, r.files "./hooq/Cargo.toml" = some t ∧ E.parse t = some v ∧
    ∀ krate ∈ ["hooq-macros", "hooq-helpers"], Has ["dependencies", krate, "version"] v) ∧
  (∃ shown, Shows E mode version shown ∧ ∀ lang ∈ ["", "/ja"], Fills E r.files shown lang) ∧
  (mode = .addTag → E.tagName ("v" ++ version) = true ∧ "v" ++ version ∉ r.tags)

/-- The path of a manifest. -/
def Manifest (p : String) : Prop := "Cargo.toml".toList <:+ p.toList

/-- What the script relies on: the parser reads what the printer writes, and `cargo sort` rewrites
manifests only, keeps the text that stands in them, and is content with its own output. -/
structure SyncEnv.Sound (E : SyncEnv) : Prop where
  parse_print : ∀ v t, E.print v = some t → E.parse t = some v
  sort_sorts : ∀ fs fs', E.sort fs = (true, fs') → E.sorted fs' = true
  sort_else : ∀ fs fs' p, E.sort fs = (true, fs') → ¬ Manifest p → fs' p = fs p
  sort_keeps : ∀ fs fs' p ks s, E.sort fs = (true, fs') → StandsIn E fs p ks s → StandsIn E fs' p ks s
  sorted_manifests : ∀ fs fs', (∀ p, Manifest p → fs' p = fs p) → E.sorted fs' = E.sorted fs

end Hooq
