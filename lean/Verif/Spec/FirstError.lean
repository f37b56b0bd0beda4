import Verif.Spec.Errors
import Verif.Spec.Agrees
import Verif.Model.Root

/-!
# Which error is reported
-/

namespace Hooq

/-! ## Attributes -/

/-- The error of naming a flavor by a value: the value is neither a string nor a path,
its spelling is bad, the configuration cannot be loaded, or there is no such flavor. -/
inductive FlavorErr (env : Env) (v : Value) (setting : String) : Err → Prop
  | value : v.view = .other → FlavorErr env v setting (.flavorValue setting)
  | path {p : Path} {e : FlavorPathErr} : v.view = .path p → flavorPathOfPath p = .error e →
      FlavorErr env v setting (.flavorPath e)
  | string {x : String} {e : FlavorPathErr} : v.view = .litStr x → flavorPathOfString x = .error e →
      FlavorErr env v setting (.flavorPath e)
  | load {l : List String} {msg : String} : getFlavorPath v setting = .ok l → env.store = .error msg →
      FlavorErr env v setting (.tomlLoad msg)
  | missing {l : List String} {m : FlavorMap} {names : List (List String)} :
      getFlavorPath v setting = .ok l → env.store = .ok m → getFlavor m l = .error names →
      FlavorErr env v setting (.flavorNotFound l names)

/-- The error of a malformed attribute. -/
inductive AttrErr (env : Env) : Attr → Err → Prop
  | deep {a : Attr} {x y z : Seg} {rest : List Seg} : a.getPath.segs = x :: y :: z :: rest →
      x.ident = "hooq" → AttrErr env a (.attrForm a.getPath)
  | word {p : Path} : p.IsHooqPair → p ∉ ["skip", "skip_all"].map hooqPath →
      AttrErr env (.path p) (.unknownAttr p)
  | call {p : Path} {ts : List TT} : p.IsHooqPair →
      p ∉ ["method", "hook_targets", "tail_expr_idents", "ignore_tail_expr_idents", "result_types",
        "hook_in_macros", "binding", "var"].map hooqPath →
      AttrErr env (.list p ts) (.unknownAttr p)
  | strings {p : Path} {ts : List TT} :
      p ∈ ["hook_targets", "tail_expr_idents", "ignore_tail_expr_idents", "result_types"].map hooqPath →
      parseStrings ts = none → AttrErr env (.list p ts) .stringsParse
  | target {ts : List TT} {pre post : List String} {x : String} :
      parseStrings ts = some (pre ++ x :: post) → (∀ y ∈ pre, KnownTarget y) → ¬ KnownTarget x →
      AttrErr env (.list (hooqPath "hook_targets") ts) (.badHookTarget x)
  | bool {ts : List TT} : parseBool ts = none →
      AttrErr env (.list (hooqPath "hook_in_macros") ts) .boolParse
  | binding {p : Path} {ts : List TT} : p ∈ ["binding", "var"].map hooqPath →
      env.parseNameValue ts = none → AttrErr env (.list p ts) .bindingParse
  | name {p q : Path} {ts : List TT} {v : Value} : p ∈ ["binding", "var"].map hooqPath →
      env.parseNameValue ts = some (q, v) → (∀ x, q ≠ .ofIdents [x]) →
      AttrErr env (.list p ts) .bindingName
  | flavor {x : String} {v : Value} {e : Err} :
      x ∈ ["flavor", "method", "hook_targets", "tail_expr_idents", "result_types",
          "hook_in_macros", "bindings"] →
      FlavorErr env v x e → AttrErr env (.nv (hooqPath x) v) e
  | ignore {v : Value} : AttrErr env (.nv (hooqPath "ignore_tail_expr_idents") v) .ignoreFlavorForm

/-- The error of a list of attributes: that of the first malformed one. -/
def FirstAttrErr (env : Env) (attrs : List Attr) (e : Err) : Prop :=
  ∃ pre a post, attrs = pre ++ a :: post ∧ (∀ b ∈ pre, AttrOk env b) ∧ AttrErr env a e

/-! ## The arguments of the root attribute -/

/-- The flavors that the error of an argument shows. -/
def helpOf (env : Env) : List (List String) := (env.store.map allFlavorNames).toOption.getD []

/-- The error of an argument of the root attribute. -/
inductive RootArgErr (env : Env) : Meta → Err → Prop
  | path {p : Path} {e : FlavorPathErr} : flavorPathOfPath p = .error e →
      RootArgErr env (.path p) (.flavorPath e)
  | uses {x : String} {ts : List TT} : x ∈ ["trait_use", "trait_uses"] → env.parsePaths ts = none →
      RootArgErr env (.list (.ofIdents [x]) ts) .pathsParse
  | list {p : Path} {ts : List TT} : p ∉ ["trait_use", "trait_uses"].map (Path.ofIdents [·]) →
      RootArgErr env (.list p ts) (.rootArg (helpOf env))
  | value {p : Path} {v : Value} : (∀ x, v.view ≠ .litStr x) → RootArgErr env (.nv p v) (.rootArg (helpOf env))
  | name {p : Path} {v : Value} : p ≠ .ofIdents ["flavor"] → RootArgErr env (.nv p v) (.rootArg (helpOf env))
  | string {v : Value} {x : String} {e : FlavorPathErr} : v.view = .litStr x →
      flavorPathOfString x = .error e → RootArgErr env (.nv (.ofIdents ["flavor"]) v) (.flavorPath e)

/-- The error of the root attribute: that of the first argument that has one, and if there
is none, that of loading the configuration, and then that there is no such flavor. -/
inductive RootErr (env : Env) (args : List Meta) : Err → Prop
  | arg {pre post : List Meta} {a : Meta} {e : Err} : args = pre ++ a :: post →
      (∀ b ∈ pre, ∀ e, ¬ RootArgErr env b e) → RootArgErr env a e → RootErr env args e
  | load {msg : String} : (∀ b ∈ args, ∀ e, ¬ RootArgErr env b e) → env.store = .error msg →
      RootErr env args (.tomlLoad msg)
  | missing {r : RootAttr} {m : FlavorMap} {names : List (List String)} :
      parseRoot env {} args = .ok r → env.store = .ok m →
      getFlavor m (r.flavor.getD ["default"]) = .error names →
      RootErr env args (.flavorNotFound (r.flavor.getD ["default"]) names)

/-! ## Templates -/

/-- The first error in a template, from left to right.  It is reported at the token after
the `$`. -/
inductive SubstErr (σ : String → List TT → Prop) (ε : String → Span → Err → Prop) :
    List TT → Err → Prop
  | after {sp : Span} {t : TT} {rest : List TT} : (∀ x sp', t ≠ .ident x sp') →
      SubstErr σ ε (.punct '$' sp :: t :: rest) (.afterDollar t.span)
  | var {sp sp' : Span} {x : String} {rest : List TT} {e : Err} : ε x sp' e →
      SubstErr σ ε (.punct '$' sp :: .ident x sp' :: rest) e
  | afterVar {sp sp' : Span} {x : String} {o rest : List TT} {e : Err} : σ x o →
      SubstErr σ ε rest e → SubstErr σ ε (.punct '$' sp :: .ident x sp' :: rest) e
  | inGroup {d : Delim} {ts rest : List TT} {sp : Span} {e : Err} : SubstErr σ ε ts e →
      SubstErr σ ε (.group d ts sp :: rest) e
  | afterGroup {d : Delim} {ts ts' rest : List TT} {sp : Span} {e : Err} : Subst σ ts ts' →
      SubstErr σ ε rest e → SubstErr σ ε (.group d ts sp :: rest) e
  | afterTok {t : TT} {rest : List TT} {e : Err} : (∀ sp, t ≠ .punct '$' sp) →
      (∀ d ts sp, t ≠ .group d ts sp) → SubstErr σ ε rest e → SubstErr σ ε (t :: rest) e

/-- The error of `$x`: that of the overridden method for `$so_far`, and for a name that is
neither built in nor bound, that it is not known, with the names that are bound in
alphabetical order. -/
inductive VarErr (v : Site) (soFar : Span → Err → Prop) (x : String) (sp : Span) : Err → Prop
  | soFar {e : Err} : MetaVar.Named .soFar x → soFar sp e → VarErr v soFar x sp e
  | unknown {l : List (String × Value)} : (∀ m, ¬ MetaVar.Named m x) → v.binding x = none →
      Listing v.binding l → VarErr v soFar x sp (.unknownVar x (l.map (·.1)) sp)

/-- The error of expanding the first method of the list, asked for at `sp`. -/
def StackErr (v : Site) : List Method → Span → Err → Prop
  | [], sp, e => e = .noSoFar sp
  | m :: rest, _, e => SubstErr (VarText v (StackText v rest)) (VarErr v (StackErr v rest)) m.template e

/-- The error of a hook: that of the template, or a panic because the code that is to be
emitted does not parse. -/
def HookErr (env : Env) (s : Settings) (up : List Data) (k : Kind) (sp : Span) (n : Nat)
    (rear : Rear) (e : Err) : Prop :=
  StackErr (siteAt env s up k sp n) (methodStack env s up) sp e ∨
  ∃ out, StackText (siteAt env s up k sp n) (methodStack env s up) out ∧
    ¬ Reparses env (methodAt env s up) rear (out.map (TT.setSpan sp)) ∧ e = .panic

/-- The hook that is to be put at the node `n` below `up` fails with `e`. -/
inductive HookFails (env : Env) (s : Settings) (n : RTree) (up : List Data) (e : Err) : Prop
  | question (q : Span) (cnt : Nat) (k k' : RTree) (ctx : Ctx) (c c' : Counter) :
      n.data.tag = .question q false → n.kids = [k] → gwalk env ctx k c = .ok (k', c') →
      hookedAt env s (n.data :: up) .question = true →
      HookErr env s (n.data :: up) .question q cnt k'.rear e → HookFails env s n up e
  | ret (cnt : Nat) (k k' : RTree) (ctx : Ctx) (c c' : Counter) :
      n.data.tag = .ret → n.kids = [k] → gwalk env ctx k c = .ok (k', c') →
      returnWanted env s (n.data :: up) k'.callee = true →
      hookedAt env s (n.data :: up) .ret = true →
      HookErr env s (n.data :: up) .ret n.data.span cnt k'.rear e → HookFails env s n up e
  | tail (tk : TailKind) (cnt : Nat) (t1 : RTree) :
      n.data.edge.tail = some tk → n.data.mode ≠ .untouched → BuiltTo env n t1 →
      tailWanted env s (n.data :: up) tk t1.callee = true →
      hookedAt env s (n.data :: up) .tail = true →
      HookErr env s (n.data :: up) .tail t1.start cnt t1.rear e → HookFails env s n up e

/-! ## Positions -/

/-- The node at the first path comes before that at the second in the source, or encloses
it. -/
def Precedes : List Nat → List Nat → Prop
  | [], [] => False
  | [], _ :: _ => True
  | _ :: _, [] => False
  | i :: p, j :: q => i < j ∨ i = j ∧ Precedes p q

/-- The node is processed without an error under the settings in force there. -/
def Done (env : Env) (s : Settings) (n : RTree) (up : List Data) : Prop :=
  ∃ ctx c n' c', Agrees env s up ctx ∧ gwalk env ctx n c = .ok (n', c')

/-- Processing of the tree `t` below `up0` stops at the path `p` with the error `e`: it is
the error of the first malformed attribute of the node there, or its attributes are in
order, its parts are processed, and its hook fails.  Everything that comes before is
processed, and enclosing nodes have attributes in order. -/
structure StopsAt (env : Env) (s : Settings) (t : RTree) (up0 : List Data) (e : Err)
    (p : List Nat) (n : RTree) (up : List Data) : Prop where
  sub : t.sub p = some n
  over : t.upFrom up0 p = some (n.data :: up)
  reach : reached env s (n.data :: up) = true
  error : FirstAttrErr env n.data.seen e ∨
    (∀ a ∈ n.data.seen, AttrOk env a) ∧ HookFails env s n up e ∧
    ∀ q m upq, q ≠ [] → n.sub q = some m → n.upFrom up q = some (m.data :: upq) →
      reached env s (m.data :: upq) = true → Done env s m upq
  before : ∀ q m upq, t.sub q = some m → t.upFrom up0 q = some (m.data :: upq) →
    reached env s (m.data :: upq) = true → Precedes q p →
    (∀ a ∈ m.data.seen, AttrOk env a) ∧ (¬ q <+: p → Done env s m upq)

end Hooq
