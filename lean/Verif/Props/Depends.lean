import Verif.Spec.Depends
import Verif.Proof.EnvRel
import Verif.Proof.Congr
import Verif.Proof.Store
import Verif.Props.TomlExact
import Verif.Props.Features

/-!
# C89: what an expansion depends on in `hooq.toml`
-/

namespace Hooq

section
variable {N : List (List String) → List (List String) → Prop}

theorem SameOutcome.bind {α β : Type} {Q : α → α → Prop} {Q' : β → β → Prop} {x y : Except Err α}
    {f g : α → Except Err β} (h : SameOutcome N Q x y) (hf : ∀ a b, x = .ok a → Q a b → SameOutcome N Q' (f a) (g b)) :
    SameOutcome N Q' (x >>= f) (y >>= g) := by
  cases h with
  | ok h => exact hf _ _ rfl h
  | error e => exact .error e
  | listed h => exact .listed h
  | help h => exact .help h
  | load => exact .load

theorem SameOutcome.rfl' {α : Type} (x : Except Err α) : SameOutcome N Eq x x := by
  cases x with
  | error e => exact .error e
  | ok a => exact .ok rfl

theorem SameOutcome.resRel : ResRel (@fun α => SameOutcome N (@Eq α)) where
  refl := .rfl'
  bind := fun h hf => h.bind fun a b ha e => by subst e; exact hf a ha

/-- The same settings, with no binding twice. -/
structure SameSet (s s' : Settings) : Prop where
  same : SameSettings s s'
  nodup : s.bindings.keys.Nodup
  nodup' : s'.bindings.keys.Nodup

/-- The same summary of attributes, with no binding twice. -/
structure InertRel (i j : Inert) : Prop where
  same : SameInert i j
  nodup : i.bindings.keys.Nodup
  nodup' : j.bindings.keys.Nodup

variable {env env' : Env}

/-- What is known about the attributes of a program. -/
def LooksSame (N : List (List String) → List (List String) → Prop) (env env' : Env) (a : Attr) : Prop :=
  ∀ path, a.Takes path → SameOutcome N SameSet (lookupFlavor env path) (lookupFlavor env' path)

theorem value_depends {x : String} {v : Value} {q : Path} (hq : q = hooqPath x)
    (hx : x ∈ ["flavor", "method", "hook_targets", "tail_expr_idents", "result_types", "hook_in_macros", "bindings"])
    (ha : LooksSame N env env' (.nv q v)) (n : String) :
    SameOutcome N SameSet (flavorOfValue env v n) (flavorOfValue env' v n) := by
  simp only [flavorOfValue]
  refine SameOutcome.bind (.rfl' (getFlavorPath v n)) fun path _ hp e => ?_
  subst e
  refine ha path ⟨x, v, by rw [hq], ?_, hx⟩
  simp only [getFlavorPath] at hp
  cases hv : v.view with
  | path p =>
    rw [hv] at hp
    cases hp' : flavorPathOfPath p with
    | error e => simp [hp', Except.mapError] at hp
    | ok l => simp only [hp', Except.mapError, Except.ok.injEq] at hp; exact .inl ⟨p, hv, by rw [hp', hp]⟩
  | litStr s =>
    rw [hv] at hp
    cases hp' : flavorPathOfString s with
    | error e => simp [hp', Except.mapError] at hp
    | ok l => simp only [hp', Except.mapError, Except.ok.injEq] at hp; exact .inr ⟨s, hv, by rw [hp', hp]⟩
  | other => simp [hv] at hp

/-- A step that does not look at the flavors. -/
theorem step_plain {a : Attr} (h : ∀ acc, inertStep env acc a = inertStep env' acc a) {i j : Inert} (hi : InertRel i j) :
    SameOutcome N (fun r r' => InertRel r.1 r'.1 ∧ r.2 = r'.2) (inertStep env i a) (inertStep env' j a) := by
  rw [← h]
  cases h1 : inertStep env i a with
  | error e => rw [inertStep_error env i j a h1]; exact .error e
  | ok r =>
    cases h2 : inertStep env j a with
    | error e => rw [inertStep_error env j i a h2] at h1; cases h1
    | ok r' =>
      obtain ⟨h3, h4⟩ := hi.same.step h1 h2
      exact .ok ⟨⟨h3, inertStep_nodup h1 hi.nodup, inertStep_nodup h2 hi.nodup'⟩, h4⟩

theorem extend_same {i j : Inert} (hi : InertRel i j) {s s' : Settings} (hs : SameSet s s') (k : String) :
    AMap.get? (i.bindings.extend s.bindings) k = AMap.get? (j.bindings.extend s'.bindings) k :=
  (AMap.Same.extend ⟨hi.same.bindings, hi.nodup, hi.nodup'⟩ ⟨hs.same.bindings, hs.nodup, hs.nodup'⟩).get k

theorem step_depends (hnv : env.parseNameValue = env'.parseNameValue) (hco : env.consume = env'.consume) {a : Attr}
    (ha : LooksSame N env env' a) {i j : Inert} (hi : InertRel i j) :
    SameOutcome N (fun r r' => InertRel r.1 r'.1 ∧ r.2 = r'.2) (inertStep env i a) (inertStep env' j a) := by
  cases a with
  | path p => exact step_plain (fun acc => by simp only [inertStep]) hi
  | list p ts => exact step_plain (fun acc => by simp only [inertStep, hnv, hco]) hi
  | nv p v =>
    have hs := hi.same
    simp only [inertStep]
    split
    · rename_i hp
      refine (value_depends hp (by simp) ha _).bind fun s s' _ h => .ok ⟨⟨?_, ?_, ?_⟩, rfl⟩
      · exact ⟨by simp [h.same.method], by simp [h.same.targets], by simp [h.same.tailIdents],
          by simp [h.same.ignoreIdents], by simp [h.same.resultTypes], by simp [h.same.hookInMacros],
          extend_same hi h, hs.skip, hs.skipAll⟩
      · exact AMap.extend_nodup _ _ hi.nodup
      · exact AMap.extend_nodup _ _ hi.nodup'
    split
    · rename_i hp
      exact (value_depends hp (by simp) ha _).bind fun s s' _ h => .ok ⟨⟨⟨by simp [h.same.method], hs.targets, hs.tailIdents,
        hs.ignoreIdents, hs.resultTypes, hs.hookInMacros, hs.bindings, hs.skip, hs.skipAll⟩, hi.nodup, hi.nodup'⟩, rfl⟩
    split
    · rename_i hp
      exact (value_depends hp (by simp) ha _).bind fun s s' _ h => .ok ⟨⟨⟨hs.method, by simp [h.same.targets], hs.tailIdents,
        hs.ignoreIdents, hs.resultTypes, hs.hookInMacros, hs.bindings, hs.skip, hs.skipAll⟩, hi.nodup, hi.nodup'⟩, rfl⟩
    split
    · rename_i hp
      exact (value_depends hp (by simp) ha _).bind fun s s' _ h => .ok ⟨⟨⟨hs.method, hs.targets, by simp [h.same.tailIdents],
        by simp [h.same.ignoreIdents], hs.resultTypes, hs.hookInMacros, hs.bindings, hs.skip, hs.skipAll⟩,
        hi.nodup, hi.nodup'⟩, rfl⟩
    split
    · exact .error _
    split
    · rename_i hp
      exact (value_depends hp (by simp) ha _).bind fun s s' _ h => .ok ⟨⟨⟨hs.method, hs.targets, hs.tailIdents,
        hs.ignoreIdents, by simp [h.same.resultTypes], hs.hookInMacros, hs.bindings, hs.skip, hs.skipAll⟩,
        hi.nodup, hi.nodup'⟩, rfl⟩
    split
    · rename_i hp
      exact (value_depends hp (by simp) ha _).bind fun s s' _ h => .ok ⟨⟨⟨hs.method, hs.targets, hs.tailIdents,
        hs.ignoreIdents, hs.resultTypes, by simp [h.same.hookInMacros], hs.bindings, hs.skip, hs.skipAll⟩,
        hi.nodup, hi.nodup'⟩, rfl⟩
    split
    · rename_i hp
      exact (value_depends hp (by simp) ha _).bind fun s s' _ h => .ok ⟨⟨⟨hs.method, hs.targets, hs.tailIdents,
        hs.ignoreIdents, hs.resultTypes, hs.hookInMacros, extend_same hi h, hs.skip, hs.skipAll⟩,
        AMap.extend_nodup _ _ hi.nodup, AMap.extend_nodup _ _ hi.nodup'⟩, rfl⟩
    · refine SameOutcome.bind (.rfl' (getBindingName p)) fun b _ _ e => ?_
      subst e
      cases b with
      | none => exact .ok ⟨hi, rfl⟩
      | some b =>
        refine .ok ⟨⟨⟨hs.method, hs.targets, hs.tailIdents, hs.ignoreIdents, hs.resultTypes, hs.hookInMacros, ?_,
          hs.skip, hs.skipAll⟩, AMap.insert_nodup _ _ _ hi.nodup, AMap.insert_nodup _ _ _ hi.nodup'⟩, rfl⟩
        intro k
        rw [AMap.get?_insert, AMap.get?_insert, hs.bindings]

theorem extract_depends (hnv : env.parseNameValue = env'.parseNameValue) (hco : env.consume = env'.consume) :
    ∀ {attrs : List Attr}, (∀ a ∈ attrs, LooksSame N env env' a) → ∀ {i j : Inert}, InertRel i j →
    SameOutcome N (fun r r' => InertRel r.1 r'.1 ∧ r.2 = r'.2) (extractFrom env i attrs) (extractFrom env' j attrs)
  | [], _, i, j, hi => .ok ⟨hi, rfl⟩
  | a :: rest, h, i, j, hi => by
    simp only [extractFrom]
    refine (step_depends hnv hco (h a (by simp)) hi).bind fun r r' _ hr => ?_
    refine (extract_depends hnv hco (fun b hb => h b (List.mem_cons_of_mem _ hb)) hr.1).bind fun t t' _ ht => ?_
    rw [hr.2, ht.2]
    exact .ok ⟨ht.1, rfl⟩

theorem Ctx.Same.sub {c c' : Ctx} (h : c.Same c') : c.subScope.Same c'.subScope :=
  ⟨h.method, h.targets, h.tailIdents, h.ignoreIdents, h.resultTypes, h.hookInMacros, h.bindings,
    by simp [Ctx.subScope, h.skip], h.fnInfo⟩

theorem Ctx.Same.fn {c c' : Ctx} {f : FnInfo} (h : c.Same c') : (c.updateFn f).Same (c'.updateFn f) :=
  ⟨h.method, h.targets, h.tailIdents, h.ignoreIdents, h.resultTypes, h.hookInMacros, h.bindings, h.skip,
    by simp [Ctx.updateFn, h.fnInfo]⟩

/-- Two environments that differ in the flavors only. -/
structure FlavorsDiffer (env env' : Env) : Prop where
  consume : env.consume = env'.consume
  rear : env.insertRear = env'.insertRear
  shape : env.replaceShape = env'.replaceShape
  nameValue : env.parseNameValue = env'.parseNameValue
  paths : env.parsePaths = env'.parsePaths

theorem depends_envRel (H : FlavorsDiffer env env') :
    EnvRel (@fun α => SameOutcome N (@Eq α)) Ctx.Same (LooksSame N env env') env env' where
  res := SameOutcome.resRel
  sub := Ctx.Same.sub
  fn := Ctx.Same.fn
  info := fun h => h.fnInfo
  macros := fun h => h.hookInMacros
  ret := retRule_same
  tail := tailRule_same
  hook := fun h b k sp re => by
    rw [hookExpr_same h env]
    funext n
    simp only [hookExpr, render, H.rear, H.shape]
  handle := by
    intro attrs ha c c' hc β f g hf
    have hx := extract_depends (i := {}) (j := {}) H.nameValue H.consume ha
      ⟨.refl _, by simp [AMap.keys], by simp [AMap.keys]⟩
    have hmem : ∀ {r : Inert × List Attr}, extract env attrs = .ok r → ∀ a ∈ r.2, a ∈ attrs := fun h =>
      extractFrom_mem h
    have key : SameOutcome N (fun h h' : Handled => h.ctx.Same h'.ctx ∧ h' = { h with ctx := h'.ctx } ∧
        ∀ a ∈ h.attrs, LooksSame N env env' a) (handleAttrs env attrs c) (handleAttrs env' attrs c') := by
      simp only [handleAttrs, extract]
      refine hx.bind fun r r' hr h => .ok ⟨update_same hc h.1.same h.1.nodup h.1.nodup', ?_, ?_⟩
      · simp only [← h.2, ← h.1.same.skip, ← h.1.same.skipAll, Ctx.isSkipped, hc.skip]
      · exact fun a h => ha a (hmem hr a h)
    exact key.bind fun h h' _ ⟨h1, h2, h3⟩ => by rw [h2]; exact hf h h'.ctx h1 h3

/-! ## The root attribute -/

theorem parseRoot_depends (H : FlavorsDiffer env env') (hh : N (rootHelp env) (rootHelp env')) :
    ∀ {args : List Meta} (r : RootAttr), SameOutcome N Eq (parseRoot env r args) (parseRoot env' r args)
  | [], r => .ok rfl
  | a :: rest, r => by
    simp only [parseRoot]
    refine SameOutcome.bind (Q := Eq) ?_ fun r _ _ e => by subst e; exact parseRoot_depends H hh r
    cases a with
    | path p => simp only [rootStep]; exact .rfl' _
    | list p ts =>
      simp only [rootStep, H.paths]
      split
      · exact .rfl' _
      · exact .help hh
    | nv p v =>
      simp only [rootStep]
      split
      · split
        · exact .rfl' _
        · exact .help hh
      · exact .help hh

/-- The flavor of the root attribute is one that an argument selects, and there is one if an
argument selects any. -/
theorem parseRoot_selects {env : Env} : ∀ {args : List Meta} {r r' : RootAttr}, parseRoot env r args = .ok r' →
    (r'.flavor = r.flavor ∧ ∀ a ∈ args, ∀ q, ¬ a.Selects q) ∨
    ∃ path, r'.flavor = some path ∧ ∃ a ∈ args, a.Selects path
  | [], r, r', h => by
    simp only [parseRoot, Except.ok.injEq] at h
    exact .inl ⟨by rw [h], by simp⟩
  | a :: rest, r, r', h => by
    simp only [parseRoot] at h
    obtain ⟨r1, g, h⟩ := except_bind_ok h
    rcases parseRoot_selects h with ⟨h1, h2⟩ | ⟨path, h1, b, hb, hs⟩
    swap
    · exact .inr ⟨path, h1, b, List.mem_cons_of_mem _ hb, hs⟩
    cases a with
    | path p =>
      simp only [rootStep] at g
      cases hp : flavorPathOfPath p with
      | error e => simp [hp, Except.mapError, bind, Except.bind] at g
      | ok l =>
        simp only [hp, Except.mapError, bind, Except.bind, Except.ok.injEq] at g
        split at g <;> rename_i hl
        · skip
          left
          refine ⟨by rw [h1, ← g], fun b hb q hs => ?_⟩
          rcases List.mem_cons.1 hb with rfl | hb
          · rcases hs with ⟨p', e, hq, hn⟩ | ⟨p', v, s, e, _⟩
            · cases e
              rw [hp] at hq
              exact hn (by rw [← Except.ok.inj hq]; simpa using hl)
            · cases e
          · exact h2 b hb q hs
        · exact .inr ⟨l, by rw [h1, ← g], _, by simp, .inl ⟨p, rfl, hp, by simpa using hl⟩⟩
    | list p ts =>
      simp only [rootStep] at g
      split at g
      · split at g
        · simp only [Except.ok.injEq] at g
          left
          refine ⟨by rw [h1, ← g], fun b hb q hs => ?_⟩
          rcases List.mem_cons.1 hb with rfl | hb
          · rcases hs with ⟨p', e, _⟩ | ⟨p', v, s, e, _⟩ <;> cases e
          · exact h2 b hb q hs
        · simp at g
      · simp at g
    | nv p v =>
      simp only [rootStep] at g
      split at g
      · rename_i s hs
        split at g
        · rename_i hf
          cases hp : flavorPathOfString s with
          | error e => simp [hp, Except.mapError, bind, Except.bind] at g
          | ok l =>
            simp only [hp, Except.mapError, bind, Except.bind, Except.ok.injEq] at g
            exact .inr ⟨l, by rw [h1, ← g], _, by simp, .inr ⟨p, v, s, rfl, by simpa [Path.isIdent] using hf, hs, hp⟩⟩
        · simp at g
      · simp at g

/-! ## The claims -/

/-- **C89** (what is looked at).  Two environments that differ in their flavors only, and show
the same settings under every path that the program uses, expand it in the same way. -/
theorem C89_uses (H : FlavorsDiffer env env') (hh : N (rootHelp env) (rootHelp env')) {args : List Meta} {i : Item}
    (hl : ∀ path, Uses args i path → SameOutcome N SameSet (lookupFlavor env path) (lookupFlavor env' path)) :
    SameOutcome N Eq (hooqImpls env args i) (hooqImpls env' args i) := by
  have hsafe : (viewItem {} i).Each (LooksSame N env env') := by
    apply each_of_sub
    intro p n hp a ha path ht
    exact hl path (.inr (.inr ⟨p, n, hp, a, ha, ht⟩))
  simp only [hooqImpls]
  refine SameOutcome.bind (Q := SameSet) ?_ fun s s' _ hs => ?_
  · simp only [rootSettings]
    refine SameOutcome.bind (parseRoot_depends H hh _) fun r _ hr e => ?_
    subst e
    simp only [rootLoad]
    refine SameOutcome.bind (.rfl' _) fun d _ hd e => ?_
    subst e
    have hd : d = ["default"] := by
      rw [show flavorPathOfString "default" = .ok ["default"] from by decide +kernel] at hd
      simpa [Except.mapError] using hd.symm
    have hu : Uses args i (r.flavor.getD d) := by
      rcases parseRoot_selects hr with ⟨h1, h2⟩ | ⟨path, h1, a, ha, hs⟩
      · rw [h1]; exact .inr (.inl ⟨h2, hd⟩)
      · rw [h1]; exact .inl ⟨a, ha, hs⟩
    refine (hl _ hu).bind fun s s' _ h => .ok ⟨?_, h.nodup, h.nodup'⟩
    exact ⟨by simp [h.same.traitUses], h.same.method, h.same.targets, h.same.tailIdents, h.same.ignoreIdents,
      h.same.resultTypes, h.same.hookInMacros, h.same.bindings⟩
  · have hc : (Ctx.new s).Same (Ctx.new s') := by
      have h := hs.same
      exact ⟨by simp [Ctx.new, h.method], h.targets, h.tailIdents, h.ignoreIdents, h.resultTypes, h.hookInMacros,
        ⟨h.bindings, hs.nodup, hs.nodup'⟩, rfl, rfl⟩
    refine SameOutcome.bind ((relItem (depends_envRel H) i _ hsafe _ _ hc).run _) fun a _ _ e => ?_
    subst e
    rw [hs.same.traitUses]
    exact .ok rfl

end

/-! ## Files -/

theorem FieldsOver.congr {env : TomlEnv} {t t' : TableFields} {o s : Settings} (h : SameFields t t')
    (hf : FieldsOver env t o s) : FieldsOver env t' o s := by
  obtain ⟨h1, h2, h3, h4, h5, h6, h7, h8⟩ := hf
  constructor
  · rw [← h.method]; exact h1
  · rw [← h.hookTargets]; exact h2
  · rw [← h.tailIdents]; exact h3
  · rw [← h.tailIdents, ← h.ignoreIdents]; exact h4
  · rw [← h.resultTypes]; exact h5
  · rw [← h.hookInMacros]; exact h6
  · intro k; rw [← h.bindings]; exact h7 k
  · rw [← h.traitUses]; exact h8

theorem tableAt_below (toml : AMap Table) (n x : String) (p : List String) :
    tableAt toml (n :: x :: p) = (AMap.get? toml n).bind fun t => tableAt t.subs (x :: p) := by
  simp only [tableAt]
  rfl

theorem SameAlong.get {toml toml' : AMap Table} {n : String} {q : List String} (h : SameAlong toml toml' (n :: q)) :
    (AMap.get? toml n = none ∧ AMap.get? toml' n = none) ∨
    ∃ t u, AMap.get? toml n = some t ∧ AMap.get? toml' n = some u ∧ SameFields t.fields u.fields ∧
      SameAlong t.subs u.subs q := by
  have h1 := h [n] ⟨q, rfl⟩
  have e : ∀ toml : AMap Table, tableAt toml [n] = AMap.get? toml n := by
    intro toml
    simp only [tableAt, Table.descend]
    cases AMap.get? toml n <;> rfl
  rw [e, e] at h1
  cases ha : AMap.get? toml n with
  | none =>
    cases hb : AMap.get? toml' n with
    | none => exact .inl ⟨rfl, rfl⟩
    | some u => rw [ha, hb] at h1; cases h1
  | some t =>
    cases hb : AMap.get? toml' n with
    | none => rw [ha, hb] at h1; cases h1
    | some u =>
      rw [ha, hb] at h1
      cases h1 with
      | some h1 =>
        refine .inr ⟨t, u, rfl, rfl, h1, fun p hp => ?_⟩
        cases p with
        | nil => exact .none
        | cons x p =>
          have := h (n :: x :: p) (by simpa using hp)
          rwa [tableAt_below, tableAt_below, ha, hb] at this

theorem SameAlong.symm {toml toml' : AMap Table} {q : List String} (h : SameAlong toml toml' q) :
    SameAlong toml' toml q := by
  intro p hp
  have := h p hp
  revert this
  generalize tableAt toml p = x
  generalize tableAt toml' p = y
  intro this
  cases this with
  | none => exact .none
  | some h => exact .some ⟨h.1.symm, h.2.symm, h.3.symm, h.4.symm, h.5.symm, h.6.symm, h.7.symm, fun k => (h.8 k).symm⟩

theorem Gives.along {env : TomlEnv} : ∀ {m : FlavorMap} {base : Flavor} {toml toml' : AMap Table} {q : List String}
    {s : Settings}, Gives env m base toml q s → SameAlong toml toml' q → Gives env m base toml' q s := by
  intro m base toml toml' q s h
  induction h generalizing toml' with
  | table hg hf =>
    intro ha
    rcases ha.get with ⟨h1, -⟩ | ⟨t, u, h1, h2, h3, -⟩
    · rw [h1] at hg; cases hg
    · rw [h1] at hg
      cases hg
      exact .table h2 (hf.congr h3)
  | under hg hf _ ih =>
    intro ha
    rcases ha.get with ⟨h1, -⟩ | ⟨t, u, h1, h2, h3, h4⟩
    · rw [h1] at hg; cases hg
    · rw [h1] at hg
      cases hg
      exact .under h2 (hf.congr h3) (ih h4)
  | kept hg hr =>
    intro ha
    rcases ha.get with ⟨-, h2⟩ | ⟨t, u, h1, _⟩
    · exact .kept h2 hr
    · rw [h1] at hg; cases hg

section
variable {base : Env} {T : TomlEnv} {hl : List TT} {msg : TomlErr → String} {toml toml' : AMap Table}
  {ft : PresetFeatures} {c : Bool}

theorem featured_genuine : Genuine (featured base T hl msg toml ft c) := by
  intro m hm
  refine ⟨hl, ft, { T with consume := c }, rfl, .inr ⟨toml, ?_⟩⟩
  simp only [featured] at hm
  cases h : applyToml { T with consume := c } (defaultSettings c hl) (presetFlavors c hl ft) toml with
  | error e => rw [h] at hm; cases hm
  | ok m' => rw [h] at hm; obtain rfl := Except.ok.inj hm; exact h

theorem featured_differ : FlavorsDiffer (featured base T hl msg toml ft c) (featured base T hl msg toml' ft c) :=
  ⟨rfl, rfl, rfl, rfl, rfl⟩

theorem lookup_with {m : FlavorMap} (h : flavorsWith T hl toml ft c = .ok m) (path : List String) :
    lookupFlavor (featured base T hl msg toml ft c) path = match getFlavor m path with
      | .ok f => .ok f.settings
      | .error names => .error (.flavorNotFound path names) := by
  simp only [flavorsWith] at h
  simp only [lookupFlavor, featured, h, Except.mapError]
  rfl

theorem help_with {m : FlavorMap} (h : flavorsWith T hl toml ft c = .ok m) :
    rootHelp (featured base T hl msg toml ft c) = allFlavorNames m := by
  simp only [flavorsWith] at h
  simp only [rootHelp, featured, h, Except.mapError]

theorem base_uniq : (Flavor.mk (defaultSettings c hl) []).Uniq := ⟨by simp [AMap.keys], trivial⟩

/-- Lookups of the same settings have the same outcome. -/
theorem lookup_rel {N : List (List String) → List (List String) → Prop} {m m' : FlavorMap}
    (h : flavorsWith T hl toml ft c = .ok m) (h' : flavorsWith T hl toml' ft c = .ok m')
    (hN : N (allFlavorNames m) (allFlavorNames m')) {path : List String}
    (hr : Option.Rel (fun f g => SameSettings f.settings g.settings) (getFlavorInner m path) (getFlavorInner m' path)) :
    SameOutcome N SameSet (lookupFlavor (featured base T hl msg toml ft c) path)
      (lookupFlavor (featured base T hl msg toml' ft c) path) := by
  have n1 := fun s hs => (genuine_lookup (s := s) (path := path)
    (featured_genuine (base := base) (T := T) (hl := hl) (msg := msg) (toml := toml) (ft := ft) (c := c)) hs).1
  have n2 := fun s hs => (genuine_lookup (s := s) (path := path)
    (featured_genuine (base := base) (T := T) (hl := hl) (msg := msg) (toml := toml') (ft := ft) (c := c)) hs).1
  rw [lookup_with h] at n1 ⊢
  rw [lookup_with h'] at n2 ⊢
  simp only [getFlavor] at n1 n2 ⊢
  revert n1 n2 hr
  generalize getFlavorInner m path = x
  generalize getFlavorInner m' path = y
  intro hr n1 n2
  cases hr with
  | none => exact .listed hN
  | some hr => exact .ok ⟨hr, n1 _ rfl, n2 _ rfl⟩

theorem lookup_along (hu : UniqToml toml) (hu' : UniqToml toml') {m m' : FlavorMap}
    (h : flavorsWith T hl toml ft c = .ok m) (h' : flavorsWith T hl toml' ft c = .ok m') {path : List String}
    (ha : SameAlong toml toml' path) :
    Option.Rel (fun f g => SameSettings f.settings g.settings) (getFlavorInner m path) (getFlavorInner m' path) := by
  have hp := uniq_presets c hl ft
  have key := fun {toml toml' : AMap Table} {m m' : FlavorMap} (hu : UniqToml toml) (hu' : UniqToml toml')
      (h : flavorsWith T hl toml ft c = .ok m) (h' : flavorsWith T hl toml' ft c = .ok m')
      (ha : SameAlong toml toml' path) (f : Flavor) (hf : getFlavor m path = .ok f) =>
    ((C75_flavors hu' hp h' path f.settings).2 (by
      obtain ⟨s, hg, hs⟩ := (C75_flavors hu hp h path f.settings).1 ⟨f, hf, .rfl'⟩
      exact ⟨s, hg.along ha, hs⟩))
  have k1 := key hu hu' h h' ha
  have k2 := key hu' hu h' h ha.symm
  simp only [getFlavor] at k1 k2
  cases hx : getFlavorInner m path with
  | none =>
    cases hy : getFlavorInner m' path with
    | none => exact .none
    | some g =>
      obtain ⟨f, hf, -⟩ := k2 g (by rw [hy])
      rw [hx] at hf
      cases hf
  | some f =>
    obtain ⟨g, hg, hs⟩ := k1 f (by rw [hx])
    cases hy : getFlavorInner m' path with
    | none => rw [hy] at hg; cases hg
    | some g' =>
      rw [hy] at hg
      cases hg
      exact .some hs.symm'

/-- **C89** (edits).  Two accepted files that have the same tables on the way to every flavor that
the program uses: the outcome is the same, up to the flavors that error messages list.  All other
tables may be changed, added or removed. -/
theorem C89_edit (hu : UniqToml toml) (hu' : UniqToml toml') {m m' : FlavorMap}
    (h : flavorsWith T hl toml ft c = .ok m) (h' : flavorsWith T hl toml' ft c = .ok m') {args : List Meta} {i : Item}
    (ha : ∀ path, Uses args i path → SameAlong toml toml' path) :
    SameOutcome (fun _ _ => True) Eq (hooqImpls (featured base T hl msg toml ft c) args i)
      (hooqImpls (featured base T hl msg toml' ft c) args i) :=
  C89_uses featured_differ trivial fun path hp => lookup_rel h h' trivial (lookup_along hu hu' h h' (ha path hp))

theorem names_perm {m m' : FlavorMap} (hm : UniqMap m) (hm' : UniqMap m') (h : SameStore m m') :
    (allFlavorNames m).Perm (allFlavorNames m') := by
  refine (List.perm_ext_iff_of_nodup (collectNamesList_nodup [] m hm.1 hm.2)
    (collectNamesList_nodup [] m' hm'.1 hm'.2)).2 fun q => ?_
  have key : ∀ {m : FlavorMap}, UniqMap m → (q ∈ collectNamesList [] m ↔ (getFlavorInner m q).isSome) := by
    intro m hm
    rw [collectNamesList_mem, Option.isSome_iff_exists]
    simp only [inner_iff hm, List.nil_append]
    exact ⟨fun ⟨p, g, e, hr⟩ => ⟨g, e ▸ hr⟩, fun ⟨g, hr⟩ => ⟨q, g, rfl, hr⟩⟩
  rw [key hm, key hm']
  have hq := h q
  revert hq
  generalize getFlavorInner m q = x
  generalize getFlavorInner m' q = y
  intro hq
  cases hq <;> simp

/-- **C89** (the order of hash maps).  The order in which the tables, sub-tables and bindings of the
file come out of the hash maps is not to be seen in an expansion: it succeeds with the same result,
or fails with the same error, where only the order of the flavors in a message may be another one,
and which one of several mistakes of a broken file is shown. -/
theorem C89_order (hs : SameToml toml toml') (hu : UniqToml toml) (hu' : UniqToml toml') {args : List Meta}
    {i : Item} :
    SameOutcome List.Perm Eq (hooqImpls (featured base T hl msg toml ft c) args i)
      (hooqImpls (featured base T hl msg toml' ft c) args i) := by
  have hp := uniq_presets c hl ft
  rcases C36_order (env := { T with consume := c }) (dflt := defaultSettings c hl) (m := presetFlavors c hl ft) hs hu hu'
    with ⟨⟨e, h⟩, e', h'⟩ | ⟨m, m', h, h', hst⟩
  · refine C89_uses featured_differ ?_ fun path _ => ?_
    · simp only [rootHelp, featured, h, h', Except.mapError]; rfl
    · simp only [lookupFlavor, featured, h, h', Except.mapError]; exact .load
  · have hm := updateFlavors_uniq toml hp base_uniq h
    have hm' := updateFlavors_uniq toml' hp base_uniq h'
    have hn := names_perm hm hm' hst
    refine C89_uses featured_differ ?_ fun path _ => lookup_rel h h' hn (hst path)
    rw [help_with h, help_with h']
    exact hn

end

theorem SameOutcome.ok_iff {N : List (List String) → List (List String) → Prop} {α : Type} {x y : Except Err α}
    (h : SameOutcome N Eq x y) (r : α) : x = .ok r ↔ y = .ok r := by
  cases h with
  | ok e => subst e; exact Iff.rfl
  | error | listed | help | load => simp

/-- **C89** (edits, working programs). -/
theorem C89_edit_ok {base : Env} {T : TomlEnv} {hl : List TT} {msg : TomlErr → String} {toml toml' : AMap Table}
    {ft : PresetFeatures} {c : Bool} (hu : UniqToml toml) (hu' : UniqToml toml') {m m' : FlavorMap}
    (h : flavorsWith T hl toml ft c = .ok m) (h' : flavorsWith T hl toml' ft c = .ok m') {args : List Meta} {i : Item}
    (ha : ∀ path, Uses args i path → SameAlong toml toml' path) (r : List Path × Item) :
    hooqImpls (featured base T hl msg toml ft c) args i = .ok r ↔
      hooqImpls (featured base T hl msg toml' ft c) args i = .ok r :=
  (C89_edit (base := base) (msg := msg) hu hu' h h' ha).ok_iff r

/-! ## Witnesses -/

section
open Ex
set_option maxRecDepth 10000

/-- The file `[mine] method = ".x()"`, `[other] hook_targets = ["?"]`. -/
def otherToml : AMap Table := ("other", .mk { hookTargets := some ["?"] } []) :: mineToml

theorem oneQuestion_uses {flavor : String} {path : List String} (hf : flavorPathOfString flavor = .ok path)
    {q : List String} (h : Uses [] (oneQuestion flavor) q) : q = ["default"] ∨ q = path := by
  rcases h with ⟨a, ha, -⟩ | ⟨-, h⟩ | ⟨p, n, hp, a, ha, x, v, rfl, hs, -⟩
  · simp at ha
  · exact .inl h
  · right
    match p, hp with
    | [], hp => simp [oneQuestion, Item.tree, viewItem, hnode, RTree.sub] at hp; subst hp; simp [RTree.data] at ha
    | [0], hp =>
      simp [oneQuestion, Item.tree, viewItem, viewStmts, viewStmt, viewE, viewK, quest, var, hnode, RTree.sub] at hp
      subst hp
      simp [RTree.data] at ha
      obtain ⟨-, rfl⟩ := ha
      rcases hs with ⟨p, hv, -⟩ | ⟨s, hv, hs⟩
      · simp at hv
      · simp only [ValueView.litStr.injEq] at hv
        subst hv
        rw [hf] at hs
        exact (Except.ok.inj hs).symm
    | [0, 0], hp =>
      simp [oneQuestion, Item.tree, viewItem, viewStmts, viewStmt, viewE, viewK, quest, var, hnode, onode, RTree.sub] at hp
      subst hp
      simp [RTree.data] at ha
    | 0 :: 0 :: (k + 1) :: q, hp | 0 :: 0 :: 0 :: q, hp | 0 :: (k + 1) :: q, hp | (k + 1) :: q, hp =>
      simp [oneQuestion, Item.tree, viewItem, viewStmts, viewStmt, viewE, viewK, quest, var, hnode, onode, RTree.sub] at hp

/-- The hypotheses of `C89_edit_ok` can be met: the table `[other]` is added, the program uses
`mine`. -/
example : hookWords (sampleRun mineToml "mine" ["log"]) = some [[".", "x"]] ∧
    ∀ r, sampleRun mineToml "mine" ["log"] = .ok r ↔ sampleRun otherToml "mine" ["log"] = .ok r := by
  refine ⟨by decide +kernel, fun r => ?_⟩
  have ok : ∀ {x : Except TomlErr FlavorMap}, x.toOption.isSome = true → ∃ m, x = .ok m := by
    intro x hx
    cases x with
    | error e => simp [Except.toOption] at hx
    | ok m => exact ⟨m, rfl⟩
  obtain ⟨m, hm⟩ := ok (x := flavorsWith sampleToml [tkId "h"] mineToml (presetsOn ["log"]) (consumeOn ["log"]))
    (by decide +kernel)
  obtain ⟨m', hm'⟩ := ok (x := flavorsWith sampleToml [tkId "h"] otherToml (presetsOn ["log"]) (consumeOn ["log"]))
    (by decide +kernel)
  refine C89_edit_ok ?_ ?_ hm hm' (fun path hp => ?_) r
  · simp [UniqToml, mineToml, TablesUniq, Table.Uniq, AMap.keys]
  · simp [UniqToml, otherToml, mineToml, TablesUniq, Table.Uniq, AMap.keys]
  · have : ∀ q, q.head? ≠ some "other" → Option.Rel (fun t u : Table => SameFields t.fields u.fields)
        (tableAt mineToml q) (tableAt otherToml q) := by
      intro q hq
      have : tableAt otherToml q = tableAt mineToml q := by
        cases q with
        | nil => rfl
        | cons n q =>
          have hn : ¬ "other" = n := fun e => hq (by simp [e])
          simp [tableAt, otherToml, AMap.get?, hn]
      rw [this]
      cases tableAt mineToml q with
      | none => exact .none
      | some t => exact .some ⟨rfl, rfl, rfl, rfl, rfl, rfl, rfl, fun _ => rfl⟩
    rcases oneQuestion_uses (path := ["mine"]) (by decide +kernel) hp with rfl | rfl
    all_goals
      intro q hq
      apply this
      cases q with
      | nil => simp
      | cons n q =>
        obtain ⟨t, ht⟩ := hq
        simp only [List.cons_append, List.cons.injEq] at ht
        simp [ht.1]

/-- The hypotheses of `C89_order` can be met. -/
example : hookWords (sampleRun otherToml.reverse "mine" ["log"]) = some [[".", "x"]] ∧
    ∀ r, sampleRun otherToml "mine" ["log"] = .ok r ↔ sampleRun otherToml.reverse "mine" ["log"] = .ok r := by
  refine ⟨by decide +kernel, fun r => (C89_order ?_ ?_ ?_).ok_iff r⟩
  · intro q
    have : tableAt otherToml.reverse q = tableAt otherToml q := by
      cases q with
      | nil => rfl
      | cons n q =>
        by_cases h1 : "other" = n
        · subst h1; simp [tableAt, otherToml, mineToml, AMap.get?]
        · simp [tableAt, otherToml, mineToml, AMap.get?, h1]
    rw [this]
    cases tableAt otherToml q with
    | none => exact .none
    | some t => exact .some ⟨rfl, rfl, rfl, rfl, rfl, rfl, rfl, fun _ => rfl⟩
  · simp [UniqToml, otherToml, mineToml, TablesUniq, Table.Uniq, AMap.keys]
  · simp [UniqToml, otherToml, mineToml, TablesUniq, Table.Uniq, AMap.keys]

/-- **C89** (what counts besides the flavor's own table).  A sub-flavor that is made by a table
starts from its parent: changing `[mine]` changes what `mine::sub` does. -/
theorem C89_parent : ∃ toml toml' : AMap Table, tableAt toml ["mine", "sub"] = tableAt toml' ["mine", "sub"] ∧
    hookWords (sampleRun toml "mine::sub" []) = some [[".", "x"]] ∧
    hookWords (sampleRun toml' "mine::sub" []) = some [[".", "inspect_err"]] :=
  ⟨[("mine", .mk { method := some ".x()" } [("sub", .mk {} [])])], [("mine", .mk {} [("sub", .mk {} [])])], rfl,
    by decide +kernel, by decide +kernel⟩

/-- The expansion fails with the message that `hooq.toml` cannot be loaded. -/
def FailsToLoad (x : Except Err (List Path × Item)) : Bool :=
  match x with
  | .error (.tomlLoad _) => true
  | _ => false

/-- **C89** (why the file has to be accepted).  A mistake in a table that a program does not use
breaks the program nevertheless. -/
theorem C89_broken : ∃ toml toml' : AMap Table, tableAt toml ["mine"] = tableAt toml' ["mine"] ∧
    hookWords (sampleRun toml "mine" []) = some [[".", "x"]] ∧
    FailsToLoad (sampleRun toml' "mine" []) = true :=
  ⟨mineToml, mineToml ++ [("other", .mk { method := some ".nope(" } [])], rfl, by decide +kernel, by decide +kernel⟩

end

end Hooq
