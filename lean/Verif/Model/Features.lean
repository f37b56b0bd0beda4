import Verif.Model.Root

/-!
# Cargo features

/repo/hooq/Cargo.toml and what the features decide in
/repo/hooq-macros/src/impls/flavor/presets/mod.rs and /repo/hooq-macros/src/impls/method/mod.rs.
-/

namespace Hooq

/-- The table `[features]` of /repo/hooq/Cargo.toml:36-43: what each feature switches on.
The crate `hooq-macros` is used without its default features (48-51). -/
def hooqFeatures : List (String × List String) :=
  [("anyhow", ["hooq-macros/anyhow"]),
   ("consume-question", ["hooq-macros/consume-question"]),
   ("default", ["anyhow", "log", "tracing", "eyre"]),
   ("eyre", ["hooq-macros/eyre"]),
   ("full", ["anyhow", "log", "tracing", "eyre", "consume-question"]),
   ("log", ["hooq-macros/log"]),
   ("tracing", ["hooq-macros/tracing"])]

/-- Cargo (tool): what a list of features switches on in one step.
For /repo/hooq/Cargo.toml:36-43. -/
def featureStep (table : List (String × List String)) (on : List String) : List String :=
  on ++ (table.filterMap fun r => if on.contains r.1 then some r.2 else none).flatten

/-- Cargo (tool): everything that selected features switch on.  No feature switches on more
than there are lines in the table, hence so many steps are enough.
For /repo/hooq/Cargo.toml:36-43. -/
def featuresOn (table : List (String × List String)) (selected : List String) : List String :=
  (List.range table.length).foldl (fun on _ => featureStep table on) selected

/-- The features that add presets, for a choice of features of the crate `hooq`:
/repo/hooq-macros/src/impls/flavor/presets/mod.rs:25-34. -/
def presetsOn (selected : List String) : PresetFeatures :=
  let on := featuresOn hooqFeatures selected
  { log := on.contains "hooq-macros/log"
    anyhow := on.contains "hooq-macros/anyhow"
    eyre := on.contains "hooq-macros/eyre"
    tracing := on.contains "hooq-macros/tracing" }

/-- The consume-question feature, for a choice of features of the crate `hooq`:
/repo/hooq-macros/src/impls/method/mod.rs:15, 31, 59. -/
def consumeOn (selected : List String) : Bool :=
  (featuresOn hooqFeatures selected).contains "hooq-macros/consume-question"

/-- The environment of an expansion for a choice of features: `with_hooq_toml` on the tables
`toml` (/repo/hooq-macros/src/impls/flavor/mod.rs:148-157; without a file there are none) and the
consume-question feature.  `base` and `T` give the parsers, `msg` the text of an error. -/
def featured (base : Env) (T : TomlEnv) (helpers : List TT) (msg : TomlErr → String) (toml : AMap Table)
    (ft : PresetFeatures) (consume : Bool) : Env :=
  { base with
    consume := consume
    store := (applyToml { T with consume := consume } (defaultSettings consume helpers)
      (presetFlavors consume helpers ft) toml).mapError msg }

end Hooq
