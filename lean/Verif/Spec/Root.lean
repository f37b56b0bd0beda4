import Verif.Spec.Flavor
import Verif.Spec.Template
import Verif.Model.Root

/-!
# Arguments of the root attribute and closed templates
-/

namespace Hooq

/-- The argument of `#[hooq(..)]` has one of the documented forms. -/
def ArgOk (env : Env) : Meta → Prop
  | .path p => ∀ g ∈ p.segs, g.hasArgs = false ∧ g.ident ≠ ""
  | .list p ts => p ∈ ["trait_use", "trait_uses"].map (fun s => Path.ofIdents [s]) ∧
      ∃ l, env.parsePaths ts = some l
  | .nv p v => p = Path.ofIdents ["flavor"] ∧
      ∃ s, v.view = .litStr s ∧ ¬ EmptyComponent (sepScan s.toList)

/-- The flavor path that an argument names. -/
def flavorGiven : Meta → Option (List String)
  | .path p => if p.segs = [] then none else some (p.segs.map (·.ident))
  | .list _ _ => none
  | .nv _ v => match v.view with
    | .litStr s => (flavorPathOfString s).toOption
    | _ => none

/-- The trait paths that an argument names. -/
def usesGiven (env : Env) : Meta → List Path
  | .list _ ts => (env.parsePaths ts).getD []
  | _ => []

mutual
/-- Every `$` in the token, at any depth, is followed by a name with property `P`. -/
def TT.Closed (P : String → Prop) : TT → Prop
  | .group _ ts _ => ClosedAll P false ts
  | _ => True
/-- Every `$` in the tokens is followed by a name with property `P`; the flag says that
the token before was a `$`. -/
def ClosedAll (P : String → Prop) : Bool → List TT → Prop
  | _, [] => True
  | true, t :: rest => (∃ x, t.IsName x ∧ P x) ∧ ClosedAll P false rest
  | false, t :: rest => (∀ sp, t = .punct '$' sp → ClosedAll P true rest) ∧
      ((∀ sp, t ≠ .punct '$' sp) → t.Closed P ∧ ClosedAll P false rest)
end

end Hooq
