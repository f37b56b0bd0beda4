import Verif.Model.Method

/-!
# Groups without delimiters

Other macros put groups without delimiters around their arguments.
-/

namespace Hooq

/-- The tokens without the groups.  Such groups do not count; only, if `strict`, an empty one must not be the last thing. -/
inductive Unwraps (strict : Bool) : List TT → List TT → Prop
  | nil : Unwraps strict [] []
  | token {t : TT} {ts us : List TT} : (∀ g sp, t ≠ .group .none g sp) → Unwraps strict ts us →
      Unwraps strict (t :: ts) (t :: us)
  | inside {g ts us : List TT} (sp : Span) : g ≠ [] → Unwraps strict (g ++ ts) us →
      Unwraps strict (.group .none g sp :: ts) us
  | empty {ts us : List TT} (sp : Span) : Unwraps strict ts us → (strict = true → us ≠ []) →
      Unwraps strict (.group .none [] sp :: ts) us

/-- The tokens after leaving the groups before the first token. -/
inductive Enters : List TT → List TT → Prop
  | here {t : TT} {ts : List TT} : (∀ g sp, t ≠ .group .none g sp) → Enters (t :: ts) (t :: ts)
  | inside {g ts us : List TT} (sp : Span) : Enters (g ++ ts) us → Enters (.group .none g sp :: ts) us

end Hooq
