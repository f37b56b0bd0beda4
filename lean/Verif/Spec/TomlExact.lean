import Verif.Spec.Toml

/-!
# The whole effect of a `hooq.toml`, stated path by path
-/

namespace Hooq

/-- What is wrong with the table `t` at the path `q`. -/
def Defect (env : TomlEnv) (q : List String) (t : TableFields) : TomlErr → Prop
  | .emptyName => q.getLast? = some ""
  | .overrideEmpty => q.getLast? = some "empty"
  | .traitUses => ∃ p ∈ t.traitUses, env.parsePath p = none
  | .method => ∃ x, t.method = some x ∧ env.lex x = none
  | .hookTargets s => ∃ l pre post, t.hookTargets = some l ∧ l = pre ++ s :: post ∧
      (∀ x ∈ pre, KnownTarget x) ∧ ¬ KnownTarget s
  | .bindings => ∃ x ∈ t.bindings, env.parseExpr x.2 = none

/-- `Gives env m base toml q s`: after applying the file `toml` to the flavors `m`, the
path `q` names a flavor with the settings `s`, where flavors that are new at the top start
from `base`. -/
inductive Gives (env : TomlEnv) : FlavorMap → Flavor → AMap Table → List String → Settings → Prop
  /-- The flavor of a table: what was there, or else the base, with the fields of the table. -/
  | table {m base toml n t s} : AMap.get? toml n = some t →
      FieldsOver env t.fields ((m.get? n).getD base).settings s → Gives env m base toml [n] s
  /-- A flavor below that of a table: its sub-tables apply to the sub-flavors that were
  there; new ones start from the flavor of the table itself, *with all its sub-flavors*. -/
  | under {m base toml n t s q s'} : AMap.get? toml n = some t →
      FieldsOver env t.fields ((m.get? n).getD base).settings s →
      Gives env ((m.get? n).getD base).subs (.mk s ((m.get? n).getD base).subs) t.subs q s' →
      Gives env m base toml (n :: q) s'
  /-- Without a table everything stays. -/
  | kept {m base toml n q f} : AMap.get? toml n = none → Reaches m (n :: q) f →
      Gives env m base toml (n :: q) f.settings

end Hooq
