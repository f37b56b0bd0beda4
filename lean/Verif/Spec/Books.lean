import Verif.Model.Books

/-!
# What the books should be
-/

namespace Hooq

/-- The book of a checked out version in a language. -/
def BookOf (E : BookEnv) (version lang html : String) : Prop :=
  ∃ fs, E.checkout version = some fs ∧ E.mdbook fs ("./" ++ lang ++ "/hooq-mdbook-" ++ lang) = some html

/-- There is a book with settings for HTML in a language, and mdBook builds it. -/
def Buildable (E : BookEnv) (fs : Files) (lang : String) : Prop :=
  (∃ toml, fs ("./" ++ lang ++ "/hooq-mdbook-" ++ lang ++ "/book.toml") = some toml ∧ E.editable toml = true) ∧
  ∃ html, E.mdbook fs ("./" ++ lang ++ "/hooq-mdbook-" ++ lang) = some html

/-- Where a book is published, /repo/docs/generate_mdbooks.rs:74-75. -/
def placeOf (dir lang : String) : String := "/hooq/" ++ dir ++ "/" ++ lang

/-- Every book of the site was built for the place where it is published; `url` reads off the place
from a book. -/
def Placed (url : String → Option String) (s : BookSite) : Prop :=
  ∀ dir lang html, s.books dir lang = some html → url html = some (placeOf dir lang)

end Hooq
