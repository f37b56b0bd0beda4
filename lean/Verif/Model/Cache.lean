import Verif.Model.Flavor

/-!
# The cache of parsed `hooq.toml` files

/repo/hooq-macros/src/impls/flavor/mod.rs:78-157: `CheckedHooqToml`, `TomlStore` and
`FlavorStore::with_hooq_toml`, as a transition system.  Any number of requests run
interleaved in one process.  A step of a request is one access to what the requests
share: the environment variable `CARGO_MANIFEST_DIR`, the file system, the mutex
protected map, or the once-initialised name of the `hooq` crate; computations between two
accesses belong to the step before.
-/

namespace Hooq

/-- What is at `<dir>/hooq.toml`: nothing (`try_exists` gives `Ok(false)` or an error),
something that `read_to_string` fails on, or a text.
For /repo/hooq-macros/src/impls/flavor/mod.rs:102-113. -/
inductive FileState
  | absent
  | unreadable
  | text (s : String)
deriving DecidableEq, Repr, Inhabited

/-- `proc_macro_crate::FoundCrate` (library).
For /repo/hooq-macros/src/impls/utils/get_hooq_crate_name.rs:10-16. -/
inductive FoundCrate
  | itself
  | name (s : String)
deriving DecidableEq, Repr, Inhabited

/-- `str::replace("-", "_")`.
For /repo/hooq-macros/src/impls/utils/get_hooq_crate_name.rs:14. -/
def underscores (s : String) : String :=
  String.ofList (s.toList.map fun c => if c = '-' then '_' else c)

/-- The closure in `get_hooq_crate_name`,
/repo/hooq-macros/src/impls/utils/get_hooq_crate_name.rs:9-17; `find` is
`proc_macro_crate::crate_name`, with `none` for an error. -/
def crateName (find : String → Option FoundCrate) : String :=
  match (find "hooq").or (find "hooq-macros") with
  | some .itself => "hooq"
  | some (.name n) => underscores n
  | none => "hooq"

/-- `get_source_excerpt_helpers_name_space`,
/repo/hooq-macros/src/impls/utils/get_hooq_crate_name.rs:20-32, for a crate name.
Simplification: that the text parses as a path (the `unwrap`) is taken for granted. -/
def helperPath (name : String) : List TT :=
  if name = "hooq_macros" then tkAbs [name] else tkAbs [name, "source_excerpt_helpers"]

/-- What loading depends on: the parsers and the consume feature (`toml`), the crates found
for a value of the environment variable (`crates`), the features, and
`toml::from_str::<HooqToml>` (`parse`).  A `HooqToml` is made of hash maps, hence no key
occurs twice.
For /repo/hooq-macros/src/impls/flavor/mod.rs:96-157,
/repo/hooq-macros/src/impls/utils/get_hooq_crate_name.rs:6-32. -/
structure StoreEnv where
  toml : TomlEnv
  crates : Option String → String → Option FoundCrate
  ft : PresetFeatures
  parse : String → Option (AMap Table)

/-- The path of the helper macros as found for a value of the environment variable.
For /repo/hooq-macros/src/impls/utils/get_hooq_crate_name.rs:6-32. -/
def StoreEnv.helpers (E : StoreEnv) (var : Option String) : List TT := helperPath (crateName (E.crates var))

/-- The error messages of `load`,
/repo/hooq-macros/src/impls/flavor/mod.rs:109-115. -/
inductive LoadErr
  | read (dir : String)
  | parse (dir : String)
  | apply (e : TomlErr)
deriving DecidableEq, Repr

/-- `FlavorStore::new`, /repo/hooq-macros/src/impls/flavor/mod.rs:142-146; `hl` is
`get_source_excerpt_helpers_name_space()`. -/
def StoreEnv.presets (E : StoreEnv) (hl : List TT) : FlavorMap :=
  presetFlavors E.toml.consume hl E.ft

/-- `update_flavors` on the presets: /repo/hooq-macros/src/impls/flavor/mod.rs:153 and
206-216 (`TryFrom<HooqToml> for FlavorStore`). -/
def StoreEnv.apply (E : StoreEnv) (hl : List TT) (t : AMap Table) : Except TomlErr FlavorMap :=
  applyToml E.toml (defaultSettings E.toml.consume hl) (E.presets hl) t

/-- The key of the map and the directory of the file:
/repo/hooq-macros/src/impls/flavor/mod.rs:102, 129, 135. -/
def cacheKey (var : Option String) : String := var.getD "."

/-- Parse and check the text of a file:
/repo/hooq-macros/src/impls/flavor/mod.rs:112-115 and 218-227.  `order` is the
iteration order of the hash maps in the check; it returns the tables as parsed. -/
def StoreEnv.check (E : StoreEnv) (hl : List TT) (dir s : String) (order : AMap Table → AMap Table) :
    Except LoadErr (AMap Table) :=
  match E.parse s with
  | none => .error (.parse dir)
  | some t =>
    match E.apply hl (order t) with
    | .error e => .error (.apply e)
    | .ok _ => .ok t

/-- Where a request is in `with_hooq_toml` and `load`.
`idle`: not begun.  `begun`: the presets are made (line 149).  `keyed`: line 135 done.
`missed`: line 137 found nothing.  `probing`: line 102 done.  `reading`: line 105 done, the
file is there.  `checked`: lines 109-115 done.  `storing`: line 129 done.  `loaded`: `load`
has returned.  `done`: `with_hooq_toml` has returned.  `panicked`: the `unwrap`
in line 153 was on an error.
For /repo/hooq-macros/src/impls/flavor/mod.rs:92-157. -/
inductive Phase
  | idle
  | begun
  | keyed (key : String)
  | missed
  | probing (dir : String)
  | reading (dir : String)
  | checked (t : AMap Table)
  | storing (key : String) (t : AMap Table)
  | loaded (t : Option (AMap Table))
  | done (r : Except LoadErr FlavorMap)
  | panicked

/-- The shared state and all requests.  `once` is the `OnceLock` of
/repo/hooq-macros/src/impls/utils/get_hooq_crate_name.rs:7, with the path that is made from
the crate name in place of the name.  `own` is not in the code: it
records the project a request was made for, the value of the variable when it began. -/
structure CacheState where
  var : Option String
  once : Option (List TT)
  files : String → FileState
  cache : AMap (AMap Table)
  procs : Nat → Phase
  own : Nat → Option String

/-- What happens in a step; the number is the request.
For /repo/hooq-macros/src/impls/flavor/mod.rs:92-157. -/
inductive Event
  /-- the host sets the environment variable -/
  | host (var : Option String)
  /-- somebody changes a file -/
  | write (dir : String) (f : FileState)
  /-- line 149: the presets, for which the path of the helper macros is needed -/
  | begin (i : Nat)
  /-- line 135 -/
  | key (i : Nat) (key : String)
  /-- line 137, the map has the key -/
  | hit (i : Nat) (t : AMap Table)
  /-- line 137, the map does not have the key -/
  | miss (i : Nat)
  /-- line 102 -/
  | probe (i : Nat) (dir : String)
  /-- line 105-107 -/
  | absent (i : Nat) (dir : String)
  /-- line 105 -/
  | present (i : Nat) (dir : String)
  /-- lines 109-115, failing -/
  | fail (i : Nat) (e : LoadErr)
  /-- lines 109-115 -/
  | read (i : Nat) (dir : String) (s : String) (t : AMap Table)
  /-- line 129 -/
  | mark (i : Nat) (key : String)
  /-- line 131 -/
  | store (i : Nat) (key : String) (t : AMap Table)
  /-- lines 149-156 -/
  | finish (i : Nat) (m : FlavorMap)
  /-- line 153 -/
  | panic (i : Nat)

/-- Set the phase of a request.
For /repo/hooq-macros/src/impls/flavor/mod.rs:92-157. -/
def CacheState.go (st : CacheState) (i : Nat) (p : Phase) : CacheState :=
  { st with procs := fun j => if j = i then p else st.procs j }

/-- `get_or_init`, /repo/hooq-macros/src/impls/utils/get_hooq_crate_name.rs:9: the value
that was set first, or else the one for the current value of the variable. -/
def CacheState.helper (E : StoreEnv) (st : CacheState) : List TT := st.once.getD (E.helpers st.var)

/-- The steps.  The crate name is set from the first step of the first
request on, so only that step writes it.  `Same t t'` says that `t'` lists the same
tables as `t` in another order.
For /repo/hooq-macros/src/impls/flavor/mod.rs:92-157. -/
inductive CStep (E : StoreEnv) (Same : AMap Table → AMap Table → Prop) :
    CacheState → Event → CacheState → Prop
  | host (st : CacheState) (v : Option String) : CStep E Same st (.host v) { st with var := v }
  | write (st : CacheState) (dir : String) (f : FileState) :
      CStep E Same st (.write dir f) { st with files := fun d => if d = dir then f else st.files d }
  | begin (st : CacheState) (i : Nat) : st.procs i = .idle →
      CStep E Same st (.begin i)
        { st.go i .begun with once := some (st.helper E), own := fun j => if j = i then st.var else st.own j }
  | key (st : CacheState) (i : Nat) : st.procs i = .begun →
      CStep E Same st (.key i (cacheKey st.var)) (st.go i (.keyed (cacheKey st.var)))
  | hit (st : CacheState) (i : Nat) (k : String) (t : AMap Table) : st.procs i = .keyed k →
      st.cache.get? k = some t → CStep E Same st (.hit i t) (st.go i (.loaded (some t)))
  | miss (st : CacheState) (i : Nat) (k : String) : st.procs i = .keyed k →
      st.cache.get? k = none → CStep E Same st (.miss i) (st.go i .missed)
  | probe (st : CacheState) (i : Nat) : st.procs i = .missed →
      CStep E Same st (.probe i (cacheKey st.var)) (st.go i (.probing (cacheKey st.var)))
  | absent (st : CacheState) (i : Nat) (dir : String) : st.procs i = .probing dir →
      st.files dir = .absent → CStep E Same st (.absent i dir) (st.go i (.loaded none))
  | present (st : CacheState) (i : Nat) (dir : String) : st.procs i = .probing dir →
      st.files dir ≠ .absent → CStep E Same st (.present i dir) (st.go i (.reading dir))
  | unread (st : CacheState) (i : Nat) (dir : String) : st.procs i = .reading dir →
      (∀ s, st.files dir ≠ .text s) →
      CStep E Same st (.fail i (.read dir)) (st.go i (.done (.error (.read dir))))
  | bad (st : CacheState) (i : Nat) (dir s : String) (order : AMap Table → AMap Table) (e : LoadErr) :
      st.procs i = .reading dir → st.files dir = .text s → (∀ t, E.parse s = some t → Same t (order t)) →
      E.check (st.helper E) dir s order = .error e →
      CStep E Same st (.fail i e) (st.go i (.done (.error e)))
  | read (st : CacheState) (i : Nat) (dir s : String) (order : AMap Table → AMap Table) (t : AMap Table) :
      st.procs i = .reading dir → st.files dir = .text s → (∀ t, E.parse s = some t → Same t (order t)) →
      E.check (st.helper E) dir s order = .ok t →
      CStep E Same st (.read i dir s t) (st.go i (.checked t))
  | mark (st : CacheState) (i : Nat) (t : AMap Table) : st.procs i = .checked t →
      CStep E Same st (.mark i (cacheKey st.var)) (st.go i (.storing (cacheKey st.var) t))
  | store (st : CacheState) (i : Nat) (k : String) (t : AMap Table) : st.procs i = .storing k t →
      CStep E Same st (.store i k t)
        { st.go i (.loaded (some t)) with cache := st.cache.insert k t }
  | plain (st : CacheState) (i : Nat) : st.procs i = .loaded none →
      CStep E Same st (.finish i (E.presets (st.helper E)))
        (st.go i (.done (.ok (E.presets (st.helper E)))))
  | finish (st : CacheState) (i : Nat) (t t' : AMap Table) (m : FlavorMap) :
      st.procs i = .loaded (some t) → Same t t' → E.apply (st.helper E) t' = .ok m →
      CStep E Same st (.finish i m) (st.go i (.done (.ok m)))
  | panic (st : CacheState) (i : Nat) (t t' : AMap Table) (e : TomlErr) :
      st.procs i = .loaded (some t) → Same t t' → E.apply (st.helper E) t' = .error e →
      CStep E Same st (.panic i) (st.go i .panicked)

/-- The state in which a process starts: nothing cached, no request begun
(/repo/hooq-macros/src/impls/flavor/mod.rs:92-94). -/
def CacheState.start (var : Option String) (files : String → FileState) : CacheState :=
  { var := var, once := none, files := files, cache := [], procs := fun _ => .idle, own := fun _ => none }

/-- Executions, with the events in order.  `G` restricts the steps taken: `Free` for
all executions.
For /repo/hooq-macros/src/impls/flavor/mod.rs:92-157. -/
inductive CRun (E : StoreEnv) (Same : AMap Table → AMap Table → Prop) (G : CacheState → Event → Prop)
    (st0 : CacheState) : List Event → CacheState → Prop
  | nil : CRun E Same G st0 [] st0
  | snoc {h : List Event} {st st' : CacheState} {e : Event} :
      CRun E Same G st0 h st → G st e → CStep E Same st e st' → CRun E Same G st0 (h ++ [e]) st'

end Hooq
