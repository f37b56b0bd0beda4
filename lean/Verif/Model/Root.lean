import Verif.Model.Walker

/-!
# The root attribute and the whole macro

/repo/hooq-macros/src/impls/root_attr/parse.rs, root_attr/mod.rs, impls/mod.rs.
-/

namespace Hooq

/-- `RootAttribute`, /repo/hooq-macros/src/impls/root_attr/mod.rs:38-43, without its
span. -/
structure RootAttr where
  traitUses : List Path := []
  flavor : Option (List String) := none
deriving Repr, Inhabited

/-- `Path::is_ident`.
For /repo/hooq-macros/src/impls/root_attr/parse.rs:87, 106. -/
def Path.isIdent (p : Path) (s : String) : Bool := p == Path.ofIdents [s]

/-- The flavors that `root_attribute_error_message` lists,
/repo/hooq-macros/src/impls/root_attr/parse.rs:34-44: none if they cannot be loaded. -/
def rootHelp (env : Env) : List (List String) :=
  match env.store with
  | .ok m => allFlavorNames m
  | .error _ => []

/-- One iteration of the loop of `RootAttribute::parse`:
/repo/hooq-macros/src/impls/root_attr/parse.rs:18-22 with `parse_meta_path` (56-65),
`parse_meta_list` (84-96) and `parse_name_value` (98-123). -/
def rootStep (env : Env) (r : RootAttr) : Meta → Except Err RootAttr
  | .path p => do
    let l ← (flavorPathOfPath p).mapError .flavorPath
    .ok (if l.isEmpty then r else { r with flavor := some l })
  | .list p ts =>
    if p.isIdent "trait_use" || p.isIdent "trait_uses" then
      match env.parsePaths ts with
      | some l => .ok { r with traitUses := r.traitUses ++ l }
      | none => .error .pathsParse
    else .error (.rootArg (rootHelp env))
  | .nv p v =>
    match v.view with
    | .litStr s =>
      if p.isIdent "flavor" then do
        let l ← (flavorPathOfString s).mapError .flavorPath
        .ok { r with flavor := some l }
      else .error (.rootArg (rootHelp env))
    | _ => .error (.rootArg (rootHelp env))

/-- `RootAttribute::parse`, /repo/hooq-macros/src/impls/root_attr/parse.rs:12-31, on
the list of metas that `parse_terminated` yields. -/
def parseRoot (env : Env) (r : RootAttr) : List Meta → Except Err RootAttr
  | [] => .ok r
  | m :: ms => do
    let r ← rootStep env r m
    parseRoot env r ms

/-- `RootContext::load`, /repo/hooq-macros/src/impls/root_attr/mod.rs:46-93. -/
def rootLoad (env : Env) (r : RootAttr) : Except Err Settings := do
  let dflt ← (flavorPathOfString "default").mapError .flavorPath
  let s ← lookupFlavor env (r.flavor.getD dflt)
  .ok { s with traitUses := r.traitUses ++ s.traitUses }

/-- The settings that the root attribute selects.
For /repo/hooq-macros/src/impls/root_attr/mod.rs:45-92. -/
def rootSettings (env : Env) (args : List Meta) : Except Err Settings := do
  let r ← parseRoot env {} args
  rootLoad env r

/-- `hooq_impls`, /repo/hooq-macros/src/impls/mod.rs:15-28: the paths of the
`#[allow(unused)] use P as _;` lines in front, and the item. -/
def hooqImpls (env : Env) (args : List Meta) (item : Item) : Except Err (List Path × Item) := do
  let s ← rootSettings env args
  let r ← walkItem env (Ctx.new s) item {}
  .ok (s.traitUses, r.1)

end Hooq
