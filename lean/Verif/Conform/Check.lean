import Verif.Conform.Run

/-!
# Comparing the model with the recorded expansions

`lake env lean --run Verif/Conform/Check.lean SNAPDIR FILE…` expands every FILE (`X.rs`) with
the model and compares with `X.expanded.rs`; SNAPDIR is the directory
/repo/hooq-macros/tests/special/source_excerpt_macros, whose calls of the helper macros are
compared with the recorded snapshots.  A test of the model, not a proof; /repo is only read.
-/

open Hooq.Conform

/-- The `hooq.toml` of the crate that a file belongs to. -/
def conformToml (p : System.FilePath) : IO (Option String) := do
  let mut d := p.parent
  for _ in [0:4] do
    match d with
    | some x =>
      if ← (x / "hooq.toml").pathExists then return some (← IO.FS.readFile (x / "hooq.toml"))
      if ← (x / "Cargo.toml").pathExists then return none
      d := x.parent
    | none => pure ()
  return none

def conformFiles (files : List String) : IO Unit := do
  let mut ok := 0
  let mut toks := 0
  for a in files do
    let src ← IO.FS.readFile a
    let exp ← IO.FS.readFile ((a.dropEnd 3).toString ++ ".expanded.rs")
    let toml ← conformToml a
    let consume := ((a.splitOn "consume").length > 1) || ((a.splitOn "recipe-").length > 1)
    match checkPair consume toml a src exp with
    | .ok (n, _) =>
      ok := ok + 1
      toks := toks + n
      IO.println s!"same ({n} tokens) {a}"
    | .error m => IO.println s!"DIFFERENT {a}: {m}"
  IO.println s!"{ok} of {files.length} expansions agree, {toks} tokens"

def conformHelpers (d : String) : IO Unit := do
  let mut ok := 0
  let mut all := 0
  match lexFile (← IO.FS.readFile (d ++ "/mod.rs")) with
  | .error e => IO.println e
  | .ok rs =>
    for (n, l) in helperCalls none rs do
      let s ← IO.FS.readFile (d ++ "/snapshots/r#mod__special__source_excerpt_macros__" ++ n ++ ".snap")
      let want := match s.splitOn "---\n" with
        | _ :: _ :: r => "---\n".intercalate r
        | _ => ""
      all := all + 1
      if trimEnds want.toList == trimEnds l then ok := ok + 1
      else IO.println s!"DIFFERENT {n}:\n{String.ofList l}\nrecorded:\n{want}"
  IO.println s!"{ok} of {all} helper macro snapshots agree"

def main : List String → IO Unit
  | [] => IO.println "usage: SNAPDIR FILE..."
  | d :: files => do
    conformFiles files
    conformHelpers d
