import Verif.Model.Sync

/-!
# The script that builds the books

`/repo/docs/generate_mdbooks.rs` builds the reference of every version in both languages.  git, the
TOML editor and mdBook are parameters.  Simplifications: directories can be created and removed,
nothing else changes the working tree, the index page is the list of its links, and all errors are
alike.
-/

namespace Hooq

/-- `LATEST`, /repo/docs/generate_mdbooks.rs:13. -/
def latestBook : String := "v0.3.1"

/-- `VERSIONS`, /repo/docs/generate_mdbooks.rs:14. -/
def bookVersions : List String := ["v0.3.1", "v0.3.0"]

/-- What the script calls: `checkout` gives the working tree after `git switch -d`, lines 52-58;
`editable` tells whether a text is TOML with the table `output.html`, lines 66-73; `mdbook` builds
the book in a directory of a working tree, lines 79-94.
For /repo/docs/generate_mdbooks.rs:31-45, 52-58, 64-94. -/
structure BookEnv where
  inDocs : Bool
  checkout : String → Option Files
  editable : String → Bool
  mdbook : Files → String → Option String

/-- The working tree, the links of `books/index.html` and the books by directory and language.
For /repo/docs/generate_mdbooks.rs:45, 60, 84, 114-115. -/
structure BookSite where
  tree : Files
  index : Option (List (String × String))
  books : String → String → Option String

/-- The links of the index page, /repo/docs/generate_mdbooks.rs:155-166. -/
def indexLinks (versions : List String) : List (String × String) :=
  [("latest", "en"), ("latest", "ja")] ++ versions.flatMap fun v => [(v, "en"), (v, "ja")]

/-- `build_books_inner`, /repo/docs/generate_mdbooks.rs:62-97.  The edited `book.toml` (lines 67-76)
is dropped: the file that mdBook reads stays as it is. -/
def buildBook (E : BookEnv) (lang version : String) (s : BookSite) : Option BookSite := do
  let toml ← s.tree ("./" ++ lang ++ "/hooq-mdbook-" ++ lang ++ "/book.toml")
  if E.editable toml then
    let html ← E.mdbook s.tree ("./" ++ lang ++ "/hooq-mdbook-" ++ lang)
    pure { s with books := fun d l => if d = version ∧ l = lang then some html else s.books d l }
  else none

/-- The body of the loop over the languages, /repo/docs/generate_mdbooks.rs:100-104. -/
def buildLang (E : BookEnv) (version : String) (isLatest : Bool) (s : BookSite) (lang : String) : Option BookSite := do
  let s ← buildBook E lang version s
  if isLatest then buildBook E lang "latest" s else pure s

/-- `build_books`, /repo/docs/generate_mdbooks.rs:50-108. -/
def buildBooks (E : BookEnv) (version : String) (isLatest : Bool) (s : BookSite) : Option BookSite := do
  let fs ← E.checkout version
  ["en", "ja"].foldlM (buildLang E version isLatest) { s with tree := fs }

/-- `main` for arbitrary constants, /repo/docs/generate_mdbooks.rs:110-125. -/
def booksMain (E : BookEnv) (latest : String) (versions : List String) (s : BookSite) : Option BookSite :=
  if E.inDocs then
    versions.foldlM (fun s v => buildBooks E v (v == latest) s)
      { s with index := some (indexLinks versions), books := fun _ _ => none }
  else none

end Hooq
