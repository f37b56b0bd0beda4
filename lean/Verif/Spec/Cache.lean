import Verif.Model.Cache
import Verif.Spec.Toml

/-!
# What the cache of `hooq.toml` files should do
-/

namespace Hooq

/-- The directory of the project that a value of `CARGO_MANIFEST_DIR` stands for: the value,
or the current directory when the variable is not set. -/
def projectDir : Option String → String
  | some d => d
  | none => "."

/-- The built-in flavors of the process when its helper crate is at `hl`. -/
def StoreEnv.builtins (E : StoreEnv) (hl : List TT) : FlavorMap :=
  presetFlavors E.toml.consume hl E.ft

/-- The built-in flavors with tables of a file applied to them. -/
def StoreEnv.withTables (E : StoreEnv) (hl : List TT) (t : AMap Table) : Except TomlErr FlavorMap :=
  applyToml E.toml (defaultSettings E.toml.consume hl) (presetFlavors E.toml.consume hl E.ft) t

/-- The same tables in another iteration order. -/
def Reordered (t t' : AMap Table) : Prop := SameToml t t' ∧ UniqToml t'

/-- No restriction on executions. -/
def Free : CacheState → Event → Prop := fun _ _ => True

/-- The request has begun and not ended. -/
def Phase.Running : Phase → Prop
  | .idle | .done _ | .panicked => False
  | _ => True

/-- The host changes the environment variable only while no request is running. -/
def Calm (st : CacheState) (e : Event) : Prop :=
  ∀ v, e = .host v → ∀ i, ¬ (st.procs i).Running

/-- The file of a project is not changed. -/
def Fixed (k : String) (e : Event) : Prop := ∀ f, e ≠ .write k f

/-- The content of a file after a history. -/
def fileNow (f0 : FileState) (dir : String) : List Event → FileState
  | [] => f0
  | .write d f :: h => fileNow (if d = dir then f else f0) dir h
  | _ :: h => fileNow f0 dir h

/-- What was last stored under a key. -/
def lastStore (o : Option (AMap Table)) (k : String) : List Event → Option (AMap Table)
  | [] => o
  | .store _ k' t :: h => lastStore (if k' = k then some t else o) k h
  | _ :: h => lastStore o k h

/-- The value of the environment variable after a history. -/
def varNow (v : Option String) : List Event → Option String
  | [] => v
  | .host w :: h => varNow w h
  | _ :: h => varNow v h

/-- The value that the environment variable had when the first request began. -/
def firstVar (v : Option String) : List Event → Option (Option String)
  | [] => none
  | .begin _ :: _ => some v
  | .host w :: h => firstVar w h
  | _ :: h => firstVar v h

/-- The request an event belongs to. -/
def Event.who : Event → Option Nat
  | .host _ | .write _ _ => none
  | .begin i | .key i _ | .mark i _ | .hit i _ | .miss i | .probe i _ | .absent i _ | .present i _ | .fail i _ | .read i _ _ _
  | .store i _ _ | .finish i _ | .panic i => some i

/-- The history contains, at some moment, a read by request `j` of the file of project
`k`, which at that moment parsed to `t`. -/
def ReadBy (E : StoreEnv) (files : String → FileState) (h : List Event) (j : Nat) (k : String)
    (t : AMap Table) : Prop :=
  ∃ h1 s h2, h = h1 ++ .read j k s t :: h2 ∧ fileNow (files k) k h1 = .text s ∧ E.parse s = some t

/-- Where the tables that request `i` for project `k` works with may come from: its own
read of that project's file, or what was last stored for the project when the request
began, which some request had read from that project's file. -/
def ComesFrom (E : StoreEnv) (files : String → FileState) (h : List Event) (i : Nat) (k : String)
    (t : AMap Table) : Prop :=
  ReadBy E files h i k t ∨
  ∃ h1 h2 j, h = h1 ++ .hit i t :: h2 ∧ lastStore none k h1 = some t ∧ ReadBy E files h1 j k t

/-- The ways in which the `hooq.toml` of project `k` is broken, and the error for each. -/
inductive BrokenFile (E : StoreEnv) (k : String) : FileState → LoadErr → Prop
  | unreadable : BrokenFile E k .unreadable (.read k)
  | unparsable (s : String) : E.parse s = none → BrokenFile E k (.text s) (.parse k)
  | unusable (s : String) (t t' : AMap Table) (hl : List TT) (e : TomlErr) : E.parse s = some t →
      Reordered t t' → E.withTables hl t' = .error e → BrokenFile E k (.text s) (.apply e)

end Hooq
