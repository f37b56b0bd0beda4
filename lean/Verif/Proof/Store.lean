import Verif.Spec.Store
import Verif.Proof.Position
import Verif.Model.Root

/-!
# Invariants of flavor stores
-/

namespace Hooq

theorem FlavorsAll_append {P : Settings → Prop} (a b : List (String × Flavor)) :
    FlavorsAll P (a ++ b) ↔ FlavorsAll P a ∧ FlavorsAll P b := by
  induction a with
  | nil => simp [FlavorsAll]
  | cons x a ih => obtain ⟨n, f⟩ := x; simp [FlavorsAll, ih, and_assoc]

theorem FlavorsAll_get {P : Settings → Prop} {m : FlavorMap} (h : FlavorsAll P m) {n : String}
    {f : Flavor} (hf : m.get? n = some f) : f.All P := by
  induction m with
  | nil => simp [AMap.get?] at hf
  | cons x m ih =>
    obtain ⟨k, g⟩ := x
    simp only [AMap.get?] at hf
    split at hf
    · obtain rfl := Option.some.inj hf; exact h.1
    · exact ih h.2 hf

theorem FlavorsAll_insert {P : Settings → Prop} {m : FlavorMap} (h : FlavorsAll P m) {n : String}
    {f : Flavor} (hf : f.All P) : FlavorsAll P (AMap.insert m n f) := by
  induction m with
  | nil => exact ⟨hf, trivial⟩
  | cons x m ih =>
    obtain ⟨k, g⟩ := x
    simp only [AMap.insert]
    split
    · exact ⟨hf, h.2⟩
    · exact ⟨h.1, ih h.2⟩

theorem Flavor.All.all_settings {P : Settings → Prop} {f : Flavor} (h : f.All P) : P f.settings := by
  cases f; exact h.1

theorem Flavor.All.all_subs {P : Settings → Prop} {f : Flavor} (h : f.All P) : FlavorsAll P f.subs := by
  cases f; exact h.2

theorem descend_all {P : Settings → Prop} {f g : Flavor} (h : f.All P) {path : List String}
    (hd : f.descend path = some g) : g.All P := by
  induction path generalizing f with
  | nil => simp only [Flavor.descend, Option.some.injEq] at hd; subst hd; exact h
  | cons n path ih =>
    simp only [Flavor.descend, Option.bind_eq_some_iff] at hd
    obtain ⟨f1, h1, h2⟩ := hd
    exact ih (FlavorsAll_get h.all_subs h1) h2

theorem lookupFlavor_all {P : Settings → Prop} {env : Env} {m : FlavorMap} (hm : env.store = .ok m)
    (h : FlavorsAll P m) {path : List String} {s : Settings} (hl : lookupFlavor env path = .ok s) :
    P s := by
  simp only [lookupFlavor, hm, getFlavor] at hl
  cases hg : getFlavorInner m path with
  | none => simp [hg] at hl
  | some f =>
    simp only [hg, Except.ok.injEq] at hl
    subst hl
    cases path with
    | nil => simp [getFlavorInner] at hg
    | cons n path =>
      simp only [getFlavorInner, Option.bind_eq_some_iff] at hg
      obtain ⟨f1, h1, h2⟩ := hg
      exact (descend_all (FlavorsAll_get h h1) h2).all_settings

mutual
theorem applyTable_all {P : Settings → Prop} {env : TomlEnv}
    (hP : ∀ t s s', P s → applyFields env t s = .ok s' → P s') :
    ∀ (t : Table) {f f' : Flavor}, f.All P → applyTable env f t = .ok f' → f'.All P
  | .mk fields subs, f, f', hf, h => by
    simp only [applyTable] at h
    obtain ⟨s, h1, h⟩ := except_bind_ok h
    obtain ⟨subs', h2, h⟩ := except_bind_ok h
    obtain rfl := Except.ok.inj h
    have hs := hP _ _ _ hf.all_settings h1
    exact ⟨hs, updateFlavors_all hP subs hf.all_subs (base := .mk s f.subs) ⟨hs, hf.all_subs⟩ h2⟩
theorem updateFlavors_all {P : Settings → Prop} {env : TomlEnv}
    (hP : ∀ t s s', P s → applyFields env t s = .ok s' → P s') :
    ∀ (ts : List (String × Table)) {m m' : FlavorMap} {base : Flavor}, FlavorsAll P m → base.All P →
      updateFlavors env m base ts = .ok m' → FlavorsAll P m'
  | [], m, m', base, hm, hb, h => by
    simp only [updateFlavors, Except.ok.injEq] at h; subst h; exact hm
  | (name, t) :: rest, m, m', base, hm, hb, h => by
    simp only [updateFlavors] at h
    split at h
    · simp at h
    split at h
    · simp at h
    obtain ⟨f, h1, h2⟩ := except_bind_ok h
    have he : ((m.get? name).getD base).All P := by
      cases hg : m.get? name with
      | none => exact hb
      | some g => exact FlavorsAll_get hm hg
    exact updateFlavors_all hP rest (FlavorsAll_insert hm (applyTable_all hP t he h1)) hb h2
end

theorem applyFields_ok {env : TomlEnv} {t : TableFields} {s s' : Settings}
    (h : applyFields env t s = .ok s') :
    fieldTraitUses env t.traitUses = .ok s'.traitUses ∧
    fieldMethod env t.method s.method = .ok s'.method ∧
    fieldTargets t.hookTargets s.targets = .ok s'.targets ∧
    fieldBindings env t.bindings s.bindings = .ok s'.bindings ∧
    s'.tailIdents = (match t.tailIdents with | some l => (splitInclude l).1 | none => s.tailIdents) ∧
    s'.ignoreIdents = (match ignoreSetting t.tailIdents t.ignoreIdents with
      | some l => l | none => s.ignoreIdents) ∧
    s'.resultTypes = t.resultTypes.getD s.resultTypes ∧
    s'.hookInMacros = t.hookInMacros.getD s.hookInMacros := by
  simp only [applyFields] at h
  obtain ⟨tu, h1, h⟩ := except_bind_ok h
  obtain ⟨m, h2, h⟩ := except_bind_ok h
  obtain ⟨tg, h3, h⟩ := except_bind_ok h
  obtain ⟨b, h4, h⟩ := except_bind_ok h
  obtain rfl := Except.ok.inj h
  exact ⟨h1, h2, h3, h4, rfl, rfl, rfl, rfl⟩

theorem applyFields_nodup {env : TomlEnv} {t : TableFields} {s s' : Settings}
    (hs : s.bindings.keys.Nodup) (h : applyFields env t s = .ok s') : s'.bindings.keys.Nodup := by
  have h4 := (applyFields_ok h).2.2.2.1
  simp only [fieldBindings] at h4
  split at h4
  · rw [← Except.ok.inj h4]; exact AMap.extend_nodup _ _ hs
  · simp at h4

theorem Method.parse_exc {ts : List TT} : (Method.parse false ts).exc = false := by
  simp only [Method.parse]; split <;> rfl

theorem applyFields_exc {env : TomlEnv} {t : TableFields} {s s' : Settings}
    (hc : env.consume = false) (hs : s.method.exc = false) (h : applyFields env t s = .ok s') :
    s'.method.exc = false := by
  have h2 := (applyFields_ok h).2.1
  simp only [fieldMethod] at h2
  split at h2
  · split at h2
    · rw [← Except.ok.inj h2, hc]; exact Method.parse_exc
    · simp at h2
  · rw [← Except.ok.inj h2]; exact hs

theorem presets_all {P : Settings → Prop} {consume : Bool} {helpers : List TT} {ft : PresetFeatures}
    (h : ∀ (s : Settings) ts, P { defaultSettings consume helpers with
      traitUses := s.traitUses, method := Method.parse consume ts })
    (hl : ∀ ts v, P { defaultSettings consume helpers with
      method := Method.parse consume ts, bindings := [("level", v)] })
    (he : P (emptySettings consume)) : FlavorsAll P (presetFlavors consume helpers ft) := by
  have hd : P (defaultSettings consume helpers) := h (defaultSettings consume helpers) _
  simp only [presetFlavors, FlavorsAll_append]
  refine ⟨⟨⟨⟨⟨⟨hd, trivial⟩, ⟨he, trivial⟩, ⟨h (defaultSettings consume helpers) _, trivial⟩, trivial⟩,
    ?_⟩, ?_⟩, ?_⟩, ?_⟩
  · split
    · simp only [levelFlavor, FlavorsAll, Flavor.All, List.map_cons, List.map_nil]
      simp only [and_true]
      exact ⟨hl _ _, hl _ _, hl _ _, hl _ _, hl _ _, hl _ _⟩
    · trivial
  · split
    · exact ⟨⟨h { defaultSettings consume helpers with traitUses := [absPath ["anyhow", "Context"]] } _,
        trivial⟩, trivial⟩
    · trivial
  · split
    · exact ⟨⟨h { defaultSettings consume helpers with
          traitUses := [absPath ["eyre", "ContextCompat"], absPath ["eyre", "WrapErr"]] } _, trivial⟩,
        ⟨h { defaultSettings consume helpers with
          traitUses := [absPath ["color_eyre", "eyre", "ContextCompat"],
            absPath ["color_eyre", "eyre", "WrapErr"]] } _, trivial⟩, trivial⟩
    · trivial
  · split
    · simp only [levelFlavor, FlavorsAll, Flavor.All, List.map_cons, List.map_nil]
      simp only [and_true]
      exact ⟨hl _ _, hl _ _, hl _ _, hl _ _, hl _ _, hl _ _⟩
    · trivial

/-- Every settings record of a store that the code can produce has distinct binding
keys, and without the consume-question feature no consume marker. -/
theorem genuine_all {env : Env} (hg : Genuine env) {m : FlavorMap} (hm : env.store = .ok m) :
    FlavorsAll (fun s => s.bindings.keys.Nodup ∧ (env.consume = false → s.method.exc = false)) m := by
  obtain ⟨helpers, ft, tenv, hc, h⟩ := hg m hm
  have hp : FlavorsAll (fun s => s.bindings.keys.Nodup ∧ (env.consume = false → s.method.exc = false))
      (presetFlavors env.consume helpers ft) := by
    apply presets_all
    · intro s ts
      exact ⟨List.nodup_nil, fun h => by rw [h]; exact Method.parse_exc⟩
    · intro ts v
      exact ⟨by simp [AMap.keys], fun h => by rw [h]; exact Method.parse_exc⟩
    · exact ⟨List.nodup_nil, fun h => by rw [h]; rfl⟩
  rcases h with rfl | ⟨toml, h⟩
  · exact hp
  · refine updateFlavors_all ?_ toml hp ?_ h
    · intro t s s' hs ha
      refine ⟨applyFields_nodup hs.1 ha, fun h0 => ?_⟩
      exact applyFields_exc (by rw [hc, h0]) (hs.2 h0) ha
    · exact ⟨⟨List.nodup_nil, fun h => by rw [h]; rfl⟩, trivial⟩

theorem genuine_lookup {env : Env} (hg : Genuine env) {path : List String} {s : Settings}
    (h : lookupFlavor env path = .ok s) :
    s.bindings.keys.Nodup ∧ (env.consume = false → s.method.exc = false) := by
  cases hm : env.store with
  | error e => simp [lookupFlavor, hm] at h
  | ok m => exact lookupFlavor_all hm (genuine_all hg hm) h

theorem genuine_root {env : Env} (hg : Genuine env) {args : List Meta} {s : Settings}
    (h : rootSettings env args = .ok s) :
    s.bindings.keys.Nodup ∧ (env.consume = false → s.method.exc = false) := by
  simp only [rootSettings] at h
  obtain ⟨r, h1, h⟩ := except_bind_ok h
  simp only [rootLoad] at h
  obtain ⟨dflt, h2, h⟩ := except_bind_ok h
  obtain ⟨s1, h3, h⟩ := except_bind_ok h
  obtain rfl := Except.ok.inj h
  have := genuine_lookup hg h3
  exact this

theorem methodOf_exc {env : Env} (hg : Genuine env) (hc : env.consume = false) {a : Attr} {m : Method}
    (h : methodOf env a = some m) : m.exc = false := by
  cases a with
  | path p => simp [methodOf] at h
  | list p ts =>
    simp only [methodOf, whenNamed] at h
    split at h
    · obtain rfl := Option.some.inj h; rw [hc]; exact Method.parse_exc
    · simp at h
  | nv p v =>
    simp only [methodOf, whenNamed] at h
    split at h
    · simp only [Option.map_eq_some_iff] at h
      obtain ⟨f, hf, rfl⟩ := h
      simp only [flavorOf, flavorOfValue] at hf
      cases hx : getFlavorPath v "" with
      | error e => simp [hx, bind, Except.bind, Except.toOption] at hf
      | ok path =>
        cases hl : lookupFlavor env path with
        | error e => simp [hx, hl, bind, Except.bind, Except.toOption] at hf
        | ok f' =>
          simp [hx, hl, bind, Except.bind, Except.toOption] at hf
          subst hf
          exact (genuine_lookup hg hl).2 hc
    · simp at h

theorem methodAt_exc {env : Env} (hg : Genuine env) (hc : env.consume = false) {s : Settings}
    (hs : s.method.exc = false) (up : List Data) : (methodAt env s up).exc = false := by
  simp only [methodAt]
  cases h : lastSet (methodOf env) (attrsOver up) with
  | none => exact hs
  | some m =>
    simp only [lastSet] at h
    have := List.mem_of_getLast? h
    simp only [List.mem_filterMap] at this
    obtain ⟨a, _, ha⟩ := this
    exact methodOf_exc hg hc ha

end Hooq
