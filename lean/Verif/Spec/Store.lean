import Verif.Model.Attr

/-!
# Stores that the code can produce
-/

namespace Hooq

/-- The flavor store of an expansion is that of the presets, or the presets with some
`hooq.toml` applied, under the same feature settings. -/
def Genuine (env : Env) : Prop :=
  ∀ m, env.store = .ok m → ∃ (helpers : List TT) (ft : PresetFeatures) (tenv : TomlEnv),
    tenv.consume = env.consume ∧
    (m = presetFlavors env.consume helpers ft ∨
     ∃ toml, applyToml tenv (defaultSettings env.consume helpers)
       (presetFlavors env.consume helpers ft) toml = .ok m)

mutual
/-- The settings of a flavor and of all flavors below it satisfy `P`. -/
def Flavor.All (P : Settings → Prop) : Flavor → Prop
  | .mk s subs => P s ∧ FlavorsAll P subs
/-- All flavors of a map satisfy `P`. -/
def FlavorsAll (P : Settings → Prop) : List (String × Flavor) → Prop
  | [] => True
  | (_, f) :: rest => f.All P ∧ FlavorsAll P rest
end

end Hooq
