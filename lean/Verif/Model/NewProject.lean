import Verif.Model.Sync

/-!
# The script for new book projects

`/repo/mdbook-source-code/new_project.rs` makes a project whose code the books show and whose
behaviour is recorded.  cargo, the parser and printer of TOML and the file system are parameters.
Simplifications: the arguments are read already (`clap`), what happens depends on the readable files
only, and all errors are alike.
-/

namespace Hooq

/-- `Mode`, /repo/mdbook-source-code/new_project.rs:14-18. -/
inductive ProjectMode
  | stdOutErr
  | expand
deriving DecidableEq

/-- What the script calls.  `cargoNew` is `cargo new`, lines 47-53, with its status and what it left;
`mkdir` tells whether `create_dir_all` works, lines 98 and 127; `writeFails` is what a failed
`std::fs::write` leaves, and `none` if it works, lines 90, 119 and 163.
For /repo/mdbook-source-code/new_project.rs:45-93. -/
structure ProjectEnv where
  parse : String → Option Entries
  print : Entries → String
  cargoNew : String → Files → Bool × Files
  mkdir : String → Files → Bool
  writeFails : String → Files → Option (Option String)

/-! ## `format!` -/

/-- A piece of a format string.
For /repo/mdbook-source-code/new_project.rs:60, 97-119, 126-163. -/
inductive FormatPiece
  | char (c : Char)
  | arg (name : List Char)
deriving DecidableEq

/-- The pieces of a format string (standard library); `name` is what was read behind a `{`.
Simplification: all arguments are names without a format.
For /repo/mdbook-source-code/new_project.rs:60, 97-119, 126-163. -/
def formatPieces : (name : Option (List Char)) → List Char → Option (List FormatPiece)
  | none, [] => some []
  | none, '{' :: '{' :: r => (formatPieces none r).map (.char '{' :: ·)
  | none, '}' :: '}' :: r => (formatPieces none r).map (.char '}' :: ·)
  | none, '{' :: r => formatPieces (some []) r
  | none, '}' :: _ => none
  | none, c :: r => (formatPieces none r).map (.char c :: ·)
  | some _, [] => none
  | some n, '}' :: r => (formatPieces none r).map (.arg n :: ·)
  | some n, c :: r => formatPieces (some (n ++ [c])) r

/-- The text of the pieces.
For /repo/mdbook-source-code/new_project.rs:60, 97-119, 126-163. -/
def formatFill (args : List (List Char × List Char)) : List FormatPiece → Option (List Char)
  | [] => some []
  | .char c :: ps => (formatFill args ps).map (c :: ·)
  | .arg n :: ps =>
    match args.find? (fun a => a.1 == n), formatFill args ps with
    | some a, some r => some (a.2 ++ r)
    | _, _ => none

/-- `format!` (standard library).  A string that is no format string does not compile.
For /repo/mdbook-source-code/new_project.rs:60, 97-119, 126-163. -/
def formatText (template : String) (args : List (List Char × List Char)) : Option String :=
  (formatPieces none template.toList).bind fun ps => (formatFill args ps).map String.ofList

/-- The first format string, /repo/mdbook-source-code/new_project.rs:101-116. -/
def stdOutErrTemplate : String := r#"#[test]
fn snapshot_test() {{
    let output = std::process::Command::new("cargo")
        .args(["run", "-q"])
        .output()
        .expect("Failed to execute command");

    let stdout = String::from_utf8_lossy(&output.stdout);
    let stderr = String::from_utf8_lossy(&output.stderr);

    insta::assert_snapshot!(
        "{project_name}",
        format!("STDOUT:\n{{}}\nSTDERR:\n{{}}", stdout, stderr)
    );
}}
"#

/-- The second format string, /repo/mdbook-source-code/new_project.rs:130-160. -/
def expandTemplate : String := r#"use test_helpers::MaskMode::*;
use test_helpers::mask_project_root;

#[test]
fn snapshot_test() {{
    mask_project_root(".", UnMask);

    let pre_expanded = std::fs::read_to_string("./src/main.expanded.rs").ok();

    let output = String::from_utf8_lossy(
        &std::process::Command::new("cargo")
            .arg("expand")
            .output()
            .unwrap()
            .stdout,
    )
    .to_string();

    if let Some(pre_expanded) = pre_expanded
        && pre_expanded != output
    {{
        panic!(
            "snapshot test failed: \n\n--- pre expanded ---\n{{pre_expanded}}\n\n--- new expanded ---\n{{output}}\n"
        );
    }} else {{
        std::fs::write("./src/main.expanded.rs", output).unwrap();
    }}

    mask_project_root(".", Mask);
}}
"#

/-- `test`, /repo/mdbook-source-code/new_project.rs:100-117 and 129-161. -/
def testText : ProjectMode → String → Option String
  | .stdOutErr, name => formatText stdOutErrTemplate [("project_name".toList, name.toList)]
  | .expand, name => formatText expandTemplate [("project_name".toList, name.toList)]

/-! ## The steps -/

/-- A part of the script: whether it worked, and the files after it.
For /repo/mdbook-source-code/new_project.rs:45-163. -/
abbrev ProjectStep := Files → Bool × Files

/-- `x?; y`.
For /repo/mdbook-source-code/new_project.rs:45-163. -/
def ProjectStep.andThen (x y : ProjectStep) : ProjectStep := fun fs =>
  match x fs with
  | (true, fs') => y fs'
  | (false, fs') => (false, fs')

/-- `std::fs::write(p, s)?`.
For /repo/mdbook-source-code/new_project.rs:90, 119, 163. -/
def ProjectEnv.write (E : ProjectEnv) (p s : String) : ProjectStep := fun fs =>
  match E.writeFails p fs with
  | none => (true, fun q => if q = p then some s else fs q)
  | some left => (false, fun q => if q = p then left else fs q)

/-- The table of `dev-dependencies`, /repo/mdbook-source-code/new_project.rs:74-86. -/
def devTable : ProjectMode → Entries
  | .stdOutErr => [("insta", .str "1.44.0")]
  | .expand => [("test-helpers", .table [("path", .str "../../test-helpers")])]

/-- The changes of the document, /repo/mdbook-source-code/new_project.rs:66-88. -/
def editDoc (mode : ProjectMode) (doc : Entries) : Option Entries :=
  match AMap.get? doc "dependencies" with
  | some (.table l) =>
    let l := AMap.insert l "hooq" (.table [("path", .str "../../hooq")])
    let doc := AMap.insert doc "dependencies" (.table l)
    some (AMap.insert doc "dev-dependencies" (.table (devTable mode)))
  | _ => none

/-- `edit_cargo_toml`, /repo/mdbook-source-code/new_project.rs:58-93. -/
def editCargoToml (E : ProjectEnv) (name : String) (mode : ProjectMode) : ProjectStep := fun fs =>
  match (fs (name ++ "/Cargo.toml")).bind E.parse with
  | some doc =>
    match editDoc mode doc with
    | some doc => E.write (name ++ "/Cargo.toml") (E.print doc) fs
    | none => (false, fs)
  | none => (false, fs)

/-- `create_tests_dir_for_std_out_err` and `create_tests_dir_for_expand`,
/repo/mdbook-source-code/new_project.rs:95-122 and 124-166. -/
def createTests (E : ProjectEnv) (name : String) (mode : ProjectMode) : ProjectStep := fun fs =>
  if E.mkdir (name ++ "/tests") fs then
    match testText mode name with
    | some text => E.write (name ++ "/tests" ++ "/test.rs") text fs
    | none => (false, fs)
  else (false, fs)

/-- `main`, /repo/mdbook-source-code/new_project.rs:29-43. -/
def newProject (E : ProjectEnv) (name : String) (mode : ProjectMode) : ProjectStep :=
  ProjectStep.andThen (E.cargoNew name) (ProjectStep.andThen (editCargoToml E name mode) (createTests E name mode))

end Hooq
