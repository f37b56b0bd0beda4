import Verif.Model.NewProject

/-!
# What a new book project should be
-/

namespace Hooq

/-- The test of a project whose output is recorded, up to the name, as in
/repo/mdbook-source-code/eye_catch/tests/test.rs. -/
def outputTestStart : String := r#"#[test]
fn snapshot_test() {
    let output = std::process::Command::new("cargo")
        .args(["run", "-q"])
        .output()
        .expect("Failed to execute command");

    let stdout = String::from_utf8_lossy(&output.stdout);
    let stderr = String::from_utf8_lossy(&output.stderr);

    insta::assert_snapshot!(
        ""#

/-- The test of a project whose output is recorded, behind the name. -/
def outputTestEnd : String := r#"",
        format!("STDOUT:\n{}\nSTDERR:\n{}", stdout, stderr)
    );
}
"#

/-- The test of a project whose expansion is recorded, as in
/repo/mdbook-source-code/attribute-binding/tests/test.rs. -/
def expansionTest : String := r#"use test_helpers::MaskMode::*;
use test_helpers::mask_project_root;

#[test]
fn snapshot_test() {
    mask_project_root(".", UnMask);

    let pre_expanded = std::fs::read_to_string("./src/main.expanded.rs").ok();

    let output = String::from_utf8_lossy(
        &std::process::Command::new("cargo")
            .arg("expand")
            .output()
            .unwrap()
            .stdout,
    )
    .to_string();

    if let Some(pre_expanded) = pre_expanded
        && pre_expanded != output
    {
        panic!(
            "snapshot test failed: \n\n--- pre expanded ---\n{pre_expanded}\n\n--- new expanded ---\n{output}\n"
        );
    } else {
        std::fs::write("./src/main.expanded.rs", output).unwrap();
    }

    mask_project_root(".", Mask);
}
"#

/-- The test of a project. -/
def projectTest : ProjectMode → String → String
  | .stdOutErr, name => outputTestStart ++ name ++ outputTestEnd
  | .expand, _ => expansionTest

/-- The manifest after the script: it depends on hooq, its tests on one thing, and all else is as
before. -/
structure ManifestMade (mode : ProjectMode) (old new : Entries) : Prop where
  deps : ∃ l l', AMap.get? old "dependencies" = some (.table l) ∧ AMap.get? new "dependencies" = some (.table l') ∧
    AMap.get? l' "hooq" = some (.table [("path", .str "../../hooq")]) ∧ ∀ k, k ≠ "hooq" → AMap.get? l' k = AMap.get? l k
  dev : AMap.get? new "dev-dependencies" = some (.table [match mode with
    | .stdOutErr => ("insta", .str "1.44.0")
    | .expand => ("test-helpers", .table [("path", .str "../../test-helpers")])])
  others : ∀ k, k ≠ "dependencies" → k ≠ "dev-dependencies" → AMap.get? new k = AMap.get? old k

/-- What is known of cargo and the file system: a new project has a manifest, where there is one
already nothing is done, and no file disappears because it could not be written. -/
structure ProjectEnv.Sound (E : ProjectEnv) : Prop where
  makes : ∀ name fs, (E.cargoNew name fs).1 = true → (E.cargoNew name fs).2 (name ++ "/Cargo.toml") ≠ none
  refuses : ∀ name fs, fs (name ++ "/Cargo.toml") ≠ none → E.cargoNew name fs = (false, fs)
  keeps : ∀ p fs left, E.writeFails p fs = some left → fs p ≠ none → left ≠ none

/-- The directory that a relative path leads to. -/
def goTo : List String → List String → List String
  | dir, [] => dir
  | dir, ".." :: p => goTo dir.dropLast p
  | dir, c :: p => goTo (dir ++ [c]) p

end Hooq
