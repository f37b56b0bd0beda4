import Verif.Proof.FirstError
import Verif.Props.Errors
import Verif.Props.Fixture

/-!
# Which error is reported (C71)
-/

namespace Hooq

/-! ## Lists of attributes -/

/-- C71, attributes.  The error of a list of attributes is that of the first malformed
one. -/
theorem C71_attributes (env : Env) (attrs : List Attr) (e : Err) :
    extract env attrs = .error e ↔ FirstAttrErr env attrs e := extractFrom_err env {} attrs e

/-! ## The root attribute -/

theorem isIdent_iff (p : Path) (x : String) : p.isIdent x = true ↔ p = .ofIdents [x] := by
  simp [Path.isIdent]

theorem rootHelp_eq (env : Env) : rootHelp env = helpOf env := by
  simp only [rootHelp, helpOf]
  cases env.store <;> rfl

theorem rootStep_err (env : Env) (r : RootAttr) (a : Meta) (e : Err) :
    rootStep env r a = .error e ↔ RootArgErr env a e := by
  constructor
  · intro h
    cases a with
    | path p =>
      simp only [rootStep] at h
      rcases except_bind_err h with h | ⟨_, _, h⟩
      · cases hp : flavorPathOfPath p with
        | error e' => simp [hp, Except.mapError] at h; subst h; exact .path hp
        | ok l => simp [hp, Except.mapError] at h
      · simp at h
    | list p ts =>
      simp only [rootStep, rootHelp_eq] at h
      split at h
      · rename_i hp
        have : ∃ x, x ∈ ["trait_use", "trait_uses"] ∧ p = .ofIdents [x] := by
          simp only [Bool.or_eq_true, isIdent_iff] at hp
          rcases hp with rfl | rfl
          · exact ⟨_, by simp, rfl⟩
          · exact ⟨_, by simp, rfl⟩
        obtain ⟨x, hx, rfl⟩ := this
        cases hl : env.parsePaths ts with
        | some l => simp [hl] at h
        | none => simp only [hl, Except.error.injEq] at h; subst h; exact .uses hx hl
      · rename_i hp
        simp only [Except.error.injEq] at h; subst h
        simp only [Bool.or_eq_true, isIdent_iff] at hp
        exact .list (by simpa using hp)
    | nv p v =>
      simp only [rootStep, rootHelp_eq] at h
      split at h
      · rename_i x hv
        split at h
        · rename_i hp
          obtain rfl := (isIdent_iff _ _).1 hp
          rcases except_bind_err h with h | ⟨_, _, h⟩
          · cases hp : flavorPathOfString x with
            | error e' => simp [hp, Except.mapError] at h; subst h; exact .string hv hp
            | ok l => simp [hp, Except.mapError] at h
          · simp at h
        · rename_i hp
          simp only [Except.error.injEq] at h; subst h
          exact .name fun hh => hp ((isIdent_iff _ _).2 hh)
      · rename_i hv
        simp only [Except.error.injEq] at h; subst h
        exact .value fun x hx => hv x hx
  · intro h
    cases h with
    | path hp => simp [rootStep, hp, Except.mapError, bind, Except.bind]
    | @uses x ts hx hl =>
      simp only [List.mem_cons, List.not_mem_nil, or_false] at hx
      rcases hx with rfl | rfl <;> simp [rootStep, Path.isIdent, hl]
    | list hp =>
      simp only [List.map_cons, List.map_nil, List.mem_cons, List.not_mem_nil, or_false, not_or] at hp
      simp [rootStep, rootHelp_eq, Path.isIdent, hp]
    | @value p v hv =>
      simp only [rootStep, rootHelp_eq]
    | @name p v hp =>
      simp only [rootStep, rootHelp_eq]
      split
      · simp [Path.isIdent, hp]
      · rfl
    | string hv hp => simp [rootStep, hv, Path.isIdent, hp, Except.mapError, bind, Except.bind]

theorem parseRoot_err (env : Env) (r : RootAttr) (args : List Meta) (e : Err) :
    parseRoot env r args = .error e ↔ ∃ pre a post, args = pre ++ a :: post ∧
      (∀ b ∈ pre, ∀ e, ¬ RootArgErr env b e) ∧ RootArgErr env a e := by
  induction args generalizing r with
  | nil => simp [parseRoot]
  | cons a rest ih =>
    simp only [parseRoot]
    constructor
    · intro h
      rcases except_bind_err h with h | ⟨r1, h1, h2⟩
      · exact ⟨[], a, rest, rfl, by simp, (rootStep_err ..).1 h⟩
      · obtain ⟨pre, b, post, rfl, h3, h4⟩ := (ih r1).1 h2
        refine ⟨a :: pre, b, post, rfl, fun c hc => ?_, h4⟩
        rcases List.mem_cons.1 hc with rfl | hc
        · intro e he
          rw [(rootStep_err env r c e).2 he] at h1
          simp at h1
        · exact h3 c hc
    · rintro ⟨pre, b, post, h1, h2, h3⟩
      cases pre with
      | nil =>
        obtain ⟨rfl, rfl⟩ := List.cons.inj h1
        simp [(rootStep_err env r a e).2 h3, bind, Except.bind]
      | cons c pre =>
        obtain ⟨rfl, rfl⟩ := List.cons.inj h1
        cases h4 : rootStep env r a with
        | error e' => exact absurd ((rootStep_err ..).1 h4) (h2 a (by simp) e')
        | ok r1 => exact (ih r1).2 ⟨pre, b, post, rfl, fun c hc => h2 c (by simp [hc]), h3⟩

theorem parseRoot_noErr (env : Env) (r : RootAttr) (args : List Meta) :
    (∃ r', parseRoot env r args = .ok r') ↔ ∀ b ∈ args, ∀ e, ¬ RootArgErr env b e := by
  induction args generalizing r with
  | nil => simp [parseRoot]
  | cons a rest ih =>
    simp only [parseRoot]
    cases h : rootStep env r a with
    | error e =>
      simp only [bind, Except.bind, reduceCtorEq, exists_false, false_iff]
      exact fun hh => hh a (by simp) e ((rootStep_err ..).1 h)
    | ok r1 =>
      simp only [bind, Except.bind, ih, List.mem_cons, forall_eq_or_imp]
      refine ⟨fun hh => ⟨fun e he => ?_, hh⟩, fun hh => hh.2⟩
      rw [(rootStep_err env r a e).2 he] at h
      simp at h

/-- C71, root.  The error of the root attribute is that of its first bad argument, then
that of the configuration, then that of the flavor. -/
theorem C71_root (env : Env) (args : List Meta) (e : Err) :
    rootSettings env args = .error e ↔ RootErr env args e := by
  have hd : flavorPathOfString "default" = .ok ["default"] := by decide
  simp only [rootSettings]
  constructor
  · intro h
    rcases except_bind_err h with h | ⟨r, h1, h2⟩
    · obtain ⟨pre, a, post, h1, h2, h3⟩ := (parseRoot_err ..).1 h
      exact .arg h1 h2 h3
    · simp only [rootLoad, hd, Except.mapError, bind, Except.bind] at h2
      simp only [lookupFlavor] at h2
      cases hs : env.store with
      | error msg =>
        simp only [hs, Except.error.injEq] at h2; subst h2
        exact .load ((parseRoot_noErr ..).1 ⟨r, h1⟩) hs
      | ok m =>
        simp only [hs] at h2
        cases hg : getFlavor m (r.flavor.getD ["default"]) with
        | ok f => simp [hg] at h2
        | error names =>
          simp only [hg, Except.error.injEq] at h2; subst h2
          exact .missing h1 hs hg
  · intro h
    cases h with
    | arg h1 h2 h3 =>
      rw [(parseRoot_err env {} args e).2 ⟨_, _, _, h1, h2, h3⟩]; rfl
    | load h1 h2 =>
      obtain ⟨r, h3⟩ := (parseRoot_noErr env {} args).2 h1
      simp [h3, rootLoad, hd, Except.mapError, lookupFlavor, h2, bind, Except.bind]
    | missing h1 h2 h3 =>
      simp [h1, rootLoad, hd, Except.mapError, lookupFlavor, h2, h3, bind, Except.bind]

/-! ## The walk -/

/-- C71.  If the root attribute is in order and the expansion of source code fails, the
error reported is that of the first failure in the order: attributes of a node as written,
then its parts from left to right, then its hook. -/
theorem C71_first_error {env : Env} {args : List Meta} {s : Settings} {i : Item} {e : Err}
    (hs : rootSettings env args = .ok s) (hn : s.bindings.keys.Nodup) (hsrc : i.IsSource)
    (h : hooqImpls env args i = .error e) :
    ∃ p n up, StopsAt env s i.tree [] e p n up := by
  simp only [hooqImpls, hs] at h
  have hw : gwalk env (Ctx.new s) i.tree {} = .error e := by
    rw [walk_tree]
    rcases except_bind_err h with h | ⟨_, h1, h⟩
    · simp at h
    · obtain rfl := Except.ok.inj h1
      rcases except_bind_err h with h | ⟨_, _, h⟩
      · rw [h]; rfl
      · simp at h
  exact gwalk_first hn i.tree hsrc (wfItem {} i) (agrees_new env s) (fun hv => by rw [reached_cons, hv]; rfl) hw

section
open Ex
set_option maxRecDepth 10000

/-- `fn f() -> Result { #[hooq::method(.a($b))] x?; #[hooq::bogus] y?; }` -/
def Ex.twoErrors : Item :=
  .fn [] { ident := "f", output := result, text := "fn f () -> Result" }
    [.expr (quest [.list (hooqPath "method") [tkP '.', tkId "a", tkParen (tkVar "b")]]
      (var "x" 2) 2) true,
     .expr (quest [.path (hooqPath "bogus")] (var "y" 3) 3) true]

/-- The unknown variable of the first statement is reported. -/
example : hooqImpls env [] Ex.twoErrors = .error (.unknownVar "b" [] .callSite) := rfl

/-- The error of `Ex.twoErrors` is at the hook of the first statement. -/
example : ∃ p n up, StopsAt env settings Ex.twoErrors.tree [] (.unknownVar "b" [] .callSite) p n up :=
  C71_first_error (args := []) root_ok (by decide)
    (fun p n hs => by
      simpa using allNodes_sub (t := Ex.twoErrors.tree) (f := fun n => !n.built) rfl hs) rfl

/-- `fn f() -> Result { #[hooq::method(.a($b))] (#[hooq::bogus] y?)?; }`: the hook of the
outer `?` would fail, but the attribute of the inner one is reported. -/
example : hooqImpls env []
    (.fn [] { ident := "f", output := result, text := "fn f () -> Result" }
      [.expr (quest [.list (hooqPath "method") [tkP '.', tkId "a", tkParen (tkVar "b")]]
        (quest [.path (hooqPath "bogus")] (var "y" 2) 2) 2) true]) =
    .error (.unknownAttr (hooqPath "bogus")) := rfl

/-- Of two malformed attributes the first is reported. -/
example : FirstAttrErr env
    [.path (hooqPath "skip"), .list (hooqPath "hook_in_macros") [],
      .path (hooqPath "bogus")] .boolParse :=
  (C71_attributes ..).1 rfl

/-- `#[hooq(bogus(), nope)]`: the bad argument is reported, not the missing flavor. -/
example : rootSettings env [.list (.ofIdents ["bogus"]) [], .path (.ofIdents ["nope"])] =
    .error (.rootArg (helpOf env)) := rfl

/-- The same in the other order. -/
example : RootErr env [.path (.ofIdents ["nope"]), .list (.ofIdents ["bogus"]) []]
    (.rootArg (helpOf env)) :=
  (C71_root ..).1 rfl

end

end Hooq
