import Mathlib.Data.List.Infix

/-!
# Masking the project root in recorded expansions

`/repo/test-helpers/src/lib.rs`: before a test the mask in the recorded `*.expanded.rs` files is
replaced by the directory of the package, afterwards the other way round.  Texts are lists of
characters.  Simplification: a file that could be read can be written.
-/

namespace Hooq

/-- `str::replace` (library) for a pattern that is not empty: from the left to the right, the
occurrences that are found are replaced and the search goes on behind them.
For /repo/test-helpers/src/lib.rs:31-32. -/
def replaceFrom (x y : List Char) (hx : x ≠ []) (s : List Char) : List Char :=
  match s with
  | [] => []
  | c :: s =>
    if x.isPrefixOf (c :: s) then y ++ replaceFrom x y hx ((c :: s).drop x.length)
    else c :: replaceFrom x y hx s
termination_by s.length
decreasing_by
  · have := List.length_pos_iff.2 hx
    simp only [List.length_drop, List.length_cons]
    omega
  · simp

/-- `str::replace` (library).  An empty pattern is found between all characters.
For /repo/test-helpers/src/lib.rs:31-32. -/
def replaceAll (x y s : List Char) : List Char :=
  if hx : x = [] then y ++ s.flatMap fun c => c :: y else replaceFrom x y hx s

/-- `MaskMode`, /repo/test-helpers/src/lib.rs:6-9. -/
inductive MaskMode
  | mask
  | unMask

/-- The mask, /repo/test-helpers/src/lib.rs:31-32. -/
def maskText : List Char := "<hooq_root>".toList

/-- `processed_content`, /repo/test-helpers/src/lib.rs:30-33. -/
def MaskMode.process (root : List Char) (content : List Char) : MaskMode → List Char
  | .mask => replaceAll root maskText content
  | .unMask => replaceAll maskText root content

/-- The contents of files that can be read, by path.
For /repo/test-helpers/src/lib.rs:24-35. -/
abbrev Disk := String → Option (List Char)

/-- The loop of `mask_project_root`, /repo/test-helpers/src/lib.rs:24-35.  `entries` is what `glob`
gives; `none` is an entry that is an error.  The result tells whether the end was reached; if a
file cannot be read the test panics, and the files before it have been written. -/
def maskEntries (root : List Char) (mode : MaskMode) : List (Option String) → Disk → Disk × Bool
  | [], d => (d, true)
  | none :: es, d => maskEntries root mode es d
  | some p :: es, d =>
    match d p with
    | none => (d, false)
    | some c => maskEntries root mode es fun q => if q = p then some (mode.process root c) else d q

/-- `mask_project_root`, /repo/test-helpers/src/lib.rs:15-36.  `list` is `glob` on a pattern, or `none` if
the pattern is invalid; `root` is the environment variable `CARGO_MANIFEST_DIR`. -/
def maskProjectRoot (list : String → Option (List (Option String))) (root : Option (List Char)) (target : String)
    (mode : MaskMode) (d : Disk) : Disk × Bool :=
  match list (target ++ "/*.expanded.rs"), root with
  | some es, some r => maskEntries r mode es d
  | _, _ => (d, false)

end Hooq
