import Verif.Spec.Features
import Verif.Proof.EnvRel
import Verif.Proof.Cache
import Verif.Proof.FirstError
import Verif.Props.Fixture

/-!
# C88: Cargo features only add
-/

namespace Hooq

/-! ## Which features are on -/

/-! ## The consume-question feature -/

mutual
theorem entered_opened : ∀ (t : TT) {l : List TT}, t.entered = some l → ∃ l0, t.opened = l0 ++ openedAll l
  | .group .none [] _, l, h => by simp [TT.entered, enteredAll] at h
  | .group .none (t :: ts) _, l, h => by
    simp only [TT.entered] at h
    simp only [TT.opened]
    exact enteredAll_opened (t :: ts) h
  | .group .paren _ _, l, h | .group .brace _ _, l, h | .group .bracket _ _, l, h
  | .ident _ _, l, h | .punct _ _, l, h | .lit _ _, l, h | .exprHole _, l, h | .sourceHole _, l, h
  | .valueHole _ _, l, h | .bindingsHole _ _, l, h | .metaHole _ _, l, h => by
    simp only [TT.entered, Option.some.injEq] at h
    subst h
    exact ⟨[], by simp [openedAll, TT.opened]⟩
theorem enteredAll_opened : ∀ (ts : List TT) {l : List TT}, enteredAll ts = some l →
    ∃ l0, openedAll ts = l0 ++ openedAll l
  | [], l, h => by simp [enteredAll] at h
  | t :: ts, l, h => by
    simp only [enteredAll] at h
    cases ht : t.entered with
    | some l1 =>
      simp only [ht, Option.some.injEq] at h
      subst h
      obtain ⟨l0, h0⟩ := entered_opened t ht
      exact ⟨l0, by simp [openedAll, openedAll_append, h0]⟩
    | none =>
      simp only [ht] at h
      obtain ⟨l0, h0⟩ := enteredAll_opened ts h
      exact ⟨t.opened ++ l0, by simp [openedAll, h0]⟩
end

theorem split_noBang {ts : List TT} (h : ¬ EndsInBang ts) : splitTailExclamation ts = (ts, false) := by
  simp only [splitTailExclamation]
  split
  · rename_i t ht
    split
    · rename_i hp
      exfalso
      apply h
      obtain ⟨l, rfl⟩ := List.getLast?_eq_some_iff.1 ht
      cases t <;> simp [TT.isPunct] at hp
      subst hp
      exact ⟨openedAll l, _, by rw [openedAll_append]; simp only [openedAll, TT.opened, List.append_nil]; rfl⟩
    · rfl
  · rfl

/-- A method text that does not end in `!` means the same with and without the feature. -/
theorem parse_noBang {ts : List TT} (h : ¬ EndsInBang ts) (c c' : Bool) :
    Method.parse c ts = Method.parse c' ts := by
  have key : ∀ c, Method.parse c ts = Method.parse false ts := by
    intro c
    simp only [Method.parse]
    split
    · rename_i sp rest he
      have hr : ¬ EndsInBang rest := by
        rintro ⟨l, s, hl⟩
        obtain ⟨l0, h0⟩ := enteredAll_opened ts he
        exact h ⟨l0 ++ .punct '.' sp :: l, s, by simp [h0, openedAll, TT.opened, hl]⟩
      rw [split_noBang hr]
      cases c <;> rfl
    · rw [split_noBang h]
      cases c <;> rfl
  rw [key c, key c']

theorem default_consume (c c' : Bool) (hl : List TT) : defaultSettings c hl = defaultSettings c' hl := by
  cases c <;> cases c' <;> rfl

theorem presets_consume (c c' : Bool) (hl : List TT) (ft : PresetFeatures) :
    presetFlavors c hl ft = presetFlavors c' hl ft := by
  cases c <;> cases c' <;> rfl

mutual
theorem applyTable_consume {T : TomlEnv} (c c' : Bool) : ∀ (t : Table) (f : Flavor),
    (∀ m ∈ t.methods, ∀ ts, T.lex m = some ts → ¬ EndsInBang ts) →
    applyTable { T with consume := c } f t = applyTable { T with consume := c' } f t
  | .mk fields subs, f, h => by
    have h1 : applyFields { T with consume := c } fields f.settings
        = applyFields { T with consume := c' } fields f.settings := by
      have hm : fieldMethod { T with consume := c } fields.method f.settings.method
          = fieldMethod { T with consume := c' } fields.method f.settings.method := by
        cases hf : fields.method with
        | none => rfl
        | some m =>
          simp only [fieldMethod]
          split
          · rename_i ts hts
            rw [parse_noBang (h m (by simp [Table.methods, hf]) ts hts) c c']
          · rfl
      have hb : ∀ l, parseBindings { T with consume := c } l = parseBindings { T with consume := c' } l := by
        intro l
        induction l with
        | nil => rfl
        | cons x l ih => obtain ⟨k, v⟩ := x; simp only [parseBindings, ih]
      simp only [applyFields, hm, fieldTraitUses, fieldBindings, hb]
    have h2 := fun m base => updateFlavors_consume c c' subs m base
      fun m hm => h m (by simp only [Table.methods, List.mem_append]; exact .inr hm)
    simp only [applyTable, h1, h2]
theorem updateFlavors_consume {T : TomlEnv} (c c' : Bool) : ∀ (ts : List (String × Table)) (m : FlavorMap)
    (base : Flavor), (∀ m ∈ tablesMethods ts, ∀ ts, T.lex m = some ts → ¬ EndsInBang ts) →
    updateFlavors { T with consume := c } m base ts = updateFlavors { T with consume := c' } m base ts
  | [], m, base, _ => by simp only [updateFlavors]
  | (n, t) :: rest, m, base, h => by
    have h1 := fun f => applyTable_consume c c' t f
      fun m hm => h m (by simp only [tablesMethods, List.mem_append]; exact .inl hm)
    have h2 := fun m => updateFlavors_consume c c' rest m base
      fun m hm => h m (by simp only [tablesMethods, List.mem_append]; exact .inr hm)
    simp only [updateFlavors, h1, h2]
end

/-- The flavors do not depend on the feature if no method in the file ends in `!`. -/
theorem featured_store_consume {base : Env} {T : TomlEnv} {hl : List TT} {msg : TomlErr → String}
    {toml : AMap Table} {ft : PresetFeatures} (c c' : Bool) (h : c = c' ∨ TomlNoBang T toml) :
    (featured base T hl msg toml ft c).store = (featured base T hl msg toml ft c').store := by
  rcases h with rfl | h
  · rfl
  · simp only [featured, applyToml, default_consume c c', presets_consume c c',
      updateFlavors_consume c c' toml _ _ h]

/-! ## The features with presets -/

theorem AMap.get?_append {α : Type} (a b : AMap α) (k : String) :
    AMap.get? (a ++ b) k = (AMap.get? a k).or (AMap.get? b k) := by
  induction a with
  | nil => rfl
  | cons x a ih =>
    obtain ⟨n, v⟩ := x
    simp only [List.cons_append, AMap.get?]
    split
    · rfl
    · exact ih

/-- The features of `ft'` that are not in `ft`. -/
def NewPreset (ft ft' : PresetFeatures) (name : String) : Prop := ft'.Offers name ∧ ¬ ft.Offers name

theorem AMap.get?_one {α : Type} (b : Bool) (n k : String) (v : α) :
    AMap.get? (if b then [(n, v)] else []) k = if n = k ∧ b = true then some v else none := by
  cases b <;> simp [AMap.get?]

theorem presets_same {ft ft' : PresetFeatures} (hle : ∀ n, ft.Offers n → ft'.Offers n) {n : String}
    (hn : ¬ NewPreset ft ft' n) (c : Bool) (hl : List TT) :
    AMap.get? (presetFlavors c hl ft) n = AMap.get? (presetFlavors c hl ft') n := by
  have key : ft.Offers n ↔ ft'.Offers n :=
    ⟨hle n, fun h => by_contra fun h' => hn ⟨h, h'⟩⟩
  have h1 : n = "log" → ft.log = ft'.log := by
    rintro rfl; simp only [PresetFeatures.Offers] at key
    cases h : ft.log <;> cases h' : ft'.log <;> simp_all
  have h2 : n = "anyhow" → ft.anyhow = ft'.anyhow := by
    rintro rfl; simp only [PresetFeatures.Offers] at key
    cases h : ft.anyhow <;> cases h' : ft'.anyhow <;> simp_all
  have h3 : n = "eyre" ∨ n = "color_eyre" → ft.eyre = ft'.eyre := by
    rintro (rfl | rfl) <;> simp only [PresetFeatures.Offers] at key <;>
    cases h : ft.eyre <;> cases h' : ft'.eyre <;> simp_all
  have h4 : n = "tracing" → ft.tracing = ft'.tracing := by
    rintro rfl; simp only [PresetFeatures.Offers] at key
    cases h : ft.tracing <;> cases h' : ft'.tracing <;> simp_all
  simp only [presetFlavors, AMap.get?_append]
  congr 1
  · congr 1
    · congr 1
      · congr 1
        by_cases e : n = "log"
        · rw [h1 e]
        · simp only [AMap.get?_one, Ne.symm e, false_and]
      · by_cases e : n = "anyhow"
        · rw [h2 e]
        · simp only [AMap.get?_one, Ne.symm e, false_and]
    · by_cases e : n = "eyre" ∨ n = "color_eyre"
      · rw [h3 e]
      · have e1 : ¬ "eyre" = n := fun h => e (.inl h.symm)
        have e2 : ¬ "color_eyre" = n := fun h => e (.inr h.symm)
        cases ft.eyre <;> cases ft'.eyre <;> simp [AMap.get?, e1, e2]
  · by_cases e : n = "tracing"
    · rw [h4 e]
    · simp only [AMap.get?_one, Ne.symm e, false_and]

theorem presets_missing {ft ft' : PresetFeatures} {n : String} (hn : NewPreset ft ft' n) (c : Bool)
    (hl : List TT) : AMap.get? (presetFlavors c hl ft) n = none := by
  obtain ⟨h1, h2⟩ := hn
  simp only [PresetFeatures.Offers, not_or, not_and, Bool.not_eq_true] at h1 h2
  obtain ⟨g1, g2, g3, g4⟩ := h2
  rcases h1 with ⟨rfl, -⟩ | ⟨rfl, -⟩ | ⟨rfl | rfl, -⟩ | ⟨rfl, -⟩
  · simp [presetFlavors, AMap.get?_append, g1 rfl]
    cases ft.anyhow <;> cases ft.eyre <;> cases ft.tracing <;> simp [AMap.get?]
  · simp [presetFlavors, AMap.get?_append, g2 rfl]
    cases ft.log <;> cases ft.eyre <;> cases ft.tracing <;> simp [AMap.get?]
  · simp [presetFlavors, AMap.get?_append, g3 (.inl rfl)]
    cases ft.log <;> cases ft.anyhow <;> cases ft.tracing <;> simp [AMap.get?]
  · simp [presetFlavors, AMap.get?_append, g3 (.inr rfl)]
    cases ft.log <;> cases ft.anyhow <;> cases ft.tracing <;> simp [AMap.get?]
  · simp [presetFlavors, AMap.get?_append, g4 rfl]
    cases ft.log <;> cases ft.anyhow <;> cases ft.eyre <;> simp [AMap.get?]

theorem applyFields_err_any {env : TomlEnv} {t : TableFields} {s : Settings} {e : TomlErr} (s' : Settings)
    (h : applyFields env t s = .error e) : applyFields env t s' = .error e := by
  have h2 : ∀ e, fieldMethod env t.method s.method = .error e → fieldMethod env t.method s'.method = .error e := by
    intro e h
    simp only [fieldMethod] at h ⊢
    split at h
    · exact h
    · simp at h
  have h2' : ∀ a, fieldMethod env t.method s.method = .ok a → ∃ b, fieldMethod env t.method s'.method = .ok b := by
    intro e h
    simp only [fieldMethod] at h ⊢
    split at h
    · exact ⟨_, h⟩
    · exact ⟨_, rfl⟩
  have h3 : ∀ e, fieldTargets t.hookTargets s.targets = .error e → fieldTargets t.hookTargets s'.targets = .error e := by
    intro e h
    simp only [fieldTargets] at h ⊢
    split at h
    · exact h
    · simp at h
  have h3' : ∀ a, fieldTargets t.hookTargets s.targets = .ok a →
      ∃ b, fieldTargets t.hookTargets s'.targets = .ok b := by
    intro e h
    simp only [fieldTargets] at h ⊢
    split at h
    · exact ⟨_, h⟩
    · exact ⟨_, rfl⟩
  have h4 : ∀ e, fieldBindings env t.bindings s.bindings = .error e →
      fieldBindings env t.bindings s'.bindings = .error e := by
    intro e h
    simp only [fieldBindings] at h ⊢
    split at h
    · simp at h
    · exact h
  simp only [applyFields] at h ⊢
  rcases except_bind_err h with g | ⟨a, g, h⟩
  · simp only [g, bind, Except.bind]
  rw [g]
  rcases except_bind_err h with g | ⟨b, g, h⟩
  · simp only [h2 _ g, bind, Except.bind]
  obtain ⟨b', g'⟩ := h2' _ g
  rw [g']
  rcases except_bind_err h with g | ⟨b, g, h⟩
  · simp only [h3 _ g, bind, Except.bind]
  obtain ⟨c', g'⟩ := h3' _ g
  rw [g']
  rcases except_bind_err h with g | ⟨b, g, h⟩
  · simp only [h4 _ g, bind, Except.bind]
  simp at h

mutual
theorem applyTable_err_any {env : TomlEnv} : ∀ (t : Table) {f : Flavor} {e : TomlErr} (g : Flavor),
    applyTable env f t = .error e → applyTable env g t = .error e
  | .mk fields subs, f, e, g, h => by
    simp only [applyTable] at h ⊢
    rcases except_bind_err h with h1 | ⟨s, h1, h⟩
    · simp only [applyFields_err_any g.settings h1, bind, Except.bind]
    obtain ⟨s', g1⟩ := applyFields_any g.settings h1
    rw [g1]
    rcases except_bind_err h with h1 | ⟨u, h1, h⟩
    · have := updateFlavors_err_any subs g.subs (.mk s' g.subs) h1
      simp only [this, bind, Except.bind]
    · simp at h
theorem updateFlavors_err_any {env : TomlEnv} : ∀ (ts : List (String × Table)) {m : FlavorMap} {base : Flavor}
    {e : TomlErr} (m2 : FlavorMap) (base2 : Flavor), updateFlavors env m base ts = .error e →
    updateFlavors env m2 base2 ts = .error e
  | [], m, base, e, m2, base2, h => by simp [updateFlavors] at h
  | (n, t) :: rest, m, base, e, m2, base2, h => by
    simp only [updateFlavors] at h ⊢
    split at h
    · rename_i hn; rw [if_pos hn]; exact h
    · rename_i hn
      rw [if_neg hn]
      split at h
      · rename_i hn; rw [if_pos hn]; exact h
      · rename_i hn
        rw [if_neg hn]
        rcases except_bind_err h with h1 | ⟨s, h1, h⟩
        · simp only [applyTable_err_any t _ h1, bind, Except.bind]
        · obtain ⟨s', g1⟩ := applyTable_any t ((AMap.get? m2 n).getD base2) h1
          have := updateFlavors_err_any rest (AMap.insert m2 n s') base2 h
          rw [g1]
          exact this
end

/-- Maps that agree outside some names still do after a file has been applied to both. -/
theorem updateFlavors_agree {env : TomlEnv} {base : Flavor} {Q : String → Prop} :
    ∀ (ts : List (String × Table)) {m m2 r r2 : FlavorMap},
    (∀ n, Q n → AMap.get? m n = AMap.get? m2 n) → updateFlavors env m base ts = .ok r →
    updateFlavors env m2 base ts = .ok r2 → ∀ n, Q n → AMap.get? r n = AMap.get? r2 n
  | [], m, m2, r, r2, h, h1, h2 => by
    simp only [updateFlavors, Except.ok.injEq] at h1 h2
    subst h1 h2
    exact h
  | (k, t) :: rest, m, m2, r, r2, h, h1, h2 => by
    simp only [updateFlavors] at h1 h2
    split at h1
    · simp at h1
    rename_i hk
    rw [if_neg hk] at h2
    split at h1
    · simp at h1
    rename_i hk
    rw [if_neg hk] at h2
    obtain ⟨f, g1, h1⟩ := except_bind_ok h1
    obtain ⟨f2, g2, h2⟩ := except_bind_ok h2
    refine updateFlavors_agree rest (fun n hn => ?_) h1 h2
    rw [AMap.get?_insert, AMap.get?_insert]
    split
    · rename_i e
      subst e
      rw [h k hn, g2] at g1
      exact congrArg some (Except.ok.inj g1).symm
    · exact h n hn

/-- Names without a table are left alone. -/
theorem updateFlavors_untouched {env : TomlEnv} {base : Flavor} {n : String} :
    ∀ (ts : List (String × Table)) {m r : FlavorMap}, updateFlavors env m base ts = .ok r →
    AMap.get? ts n = none → AMap.get? r n = AMap.get? m n
  | [], m, r, h, _ => by simp only [updateFlavors, Except.ok.injEq] at h; rw [h]
  | (k, t) :: rest, m, r, h, hn => by
    simp only [AMap.get?] at hn
    split at hn
    · simp at hn
    rename_i hk
    simp only [updateFlavors] at h
    split at h
    · simp at h
    split at h
    · simp at h
    obtain ⟨f, g1, h⟩ := except_bind_ok h
    rw [updateFlavors_untouched rest h hn, AMap.get?_insert]
    split
    · rename_i e; exact absurd e (by simpa using hk)
    · rfl


/-! ## The walk -/

theorem Enriched.resRel (New : String → Prop) : ResRel (@Enriched New) where
  refl := .same
  bind := by
    intro α β x y f g h hf
    cases h with
    | same =>
      cases x with
      | error e => exact .same _
      | ok a => exact hf a rfl
    | found hn => exact .found hn
    | listed => exact .listed
    | help => exact .help

/-- A lookup in the two environments. -/
theorem lookup_enriched {base : Env} {T : TomlEnv} {hl : List TT} {msg : TomlErr → String}
    {toml : AMap Table} {ft ft' : PresetFeatures} {c c' : Bool} (hle : ∀ n, ft.Offers n → ft'.Offers n)
    (hc : c = c' ∨ TomlNoBang T toml) {path : List String}
    (hp : ∀ n, path.head? = some n → NewPreset ft ft' n → AMap.get? toml n = none) :
    Enriched (NewPreset ft ft') (lookupFlavor (featured base T hl msg toml ft c) path)
      (lookupFlavor (featured base T hl msg toml ft' c') path) := by
  have hst := featured_store_consume (base := base) (T := T) (hl := hl) (msg := msg) (toml := toml)
    (ft := ft) c c' hc
  simp only [lookupFlavor, hst]
  simp only [featured, applyToml]
  cases h1 : updateFlavors { T with consume := c' } (presetFlavors c' hl ft) (.mk (defaultSettings c' hl) []) toml with
  | error e =>
    rw [updateFlavors_err_any toml (presetFlavors c' hl ft') _ h1]
    exact .same _
  | ok m =>
    obtain ⟨m2, h2⟩ := updateFlavors_any toml (presetFlavors c' hl ft') (.mk (defaultSettings c' hl) []) h1
    rw [h2]
    simp only [Except.mapError]
    cases path with
    | nil => simp only [getFlavor, getFlavorInner]; exact .listed
    | cons n rest =>
      by_cases hn : NewPreset ft ft' n
      · have h3 := updateFlavors_untouched toml h1 (hp n rfl hn)
        rw [presets_missing hn] at h3
        simp only [getFlavor, getFlavorInner, h3, Option.bind_none]
        exact .found hn
      · have h3 := updateFlavors_agree (Q := fun n => ¬ NewPreset ft ft' n) toml
          (fun n hn => presets_same hle hn c' hl) h1 h2 n hn
        simp only [getFlavor, getFlavorInner, h3]
        cases (AMap.get? m2 n).bind fun f => f.descend rest with
        | none => exact .listed
        | some f => exact .same _

/-- What is asked of an attribute. -/
def AttrSafe (ft ft' : PresetFeatures) (c c' : Bool) (toml : AMap Table) (a : Attr) : Prop :=
  (c = c' ∨ ∀ ts, a = .list (hooqPath "method") ts → ¬ EndsInBang ts) ∧
  ∀ p v, a = .nv p v → ∀ n, v.Spells n → NewPreset ft ft' n → AMap.get? toml n = none

theorem spells_of {v : Value} {x : String} {path : List String} (h : getFlavorPath v x = .ok path) {n : String}
    (hn : path.head? = some n) : v.Spells n := by
  obtain ⟨rest, rfl⟩ : ∃ rest, path = n :: rest := by
    cases path with
    | nil => simp at hn
    | cons a l => simp at hn; exact ⟨l, by rw [hn]⟩
  simp only [getFlavorPath] at h
  cases hv : v.view with
  | path p =>
    rw [hv] at h
    simp only at h
    cases hp : flavorPathOfPath p with
    | error e => simp [hp, Except.mapError] at h
    | ok l => simp only [hp, Except.mapError, Except.ok.injEq] at h; exact .inl ⟨p, rest, hv, by rw [hp, h]⟩
  | litStr s =>
    rw [hv] at h
    simp only at h
    cases hp : flavorPathOfString s with
    | error e => simp [hp, Except.mapError] at h
    | ok l => simp only [hp, Except.mapError, Except.ok.injEq] at h; exact .inr ⟨s, rest, hv, by rw [hp, h]⟩
  | other => simp [hv] at h

section
variable {base : Env} {T : TomlEnv} {hl : List TT} {msg : TomlErr → String} {toml : AMap Table}
  {ft ft' : PresetFeatures} {c c' : Bool}

theorem value_enriched (hle : ∀ n, ft.Offers n → ft'.Offers n) (hc : c = c' ∨ TomlNoBang T toml) {v : Value}
    (hv : ∀ n, v.Spells n → NewPreset ft ft' n → AMap.get? toml n = none) (x : String) :
    Enriched (NewPreset ft ft') (flavorOfValue (featured base T hl msg toml ft c) v x)
      (flavorOfValue (featured base T hl msg toml ft' c') v x) := by
  simp only [flavorOfValue]
  refine (Enriched.resRel _).bind (.same _) fun path hp => lookup_enriched hle hc fun n hn => hv n (spells_of hp hn)

theorem step_enriched (hle : ∀ n, ft.Offers n → ft'.Offers n) (hc : c = c' ∨ TomlNoBang T toml) {a : Attr}
    (ha : AttrSafe ft ft' c c' toml a) (acc : Inert) :
    Enriched (NewPreset ft ft') (inertStep (featured base T hl msg toml ft c) acc a)
      (inertStep (featured base T hl msg toml ft' c') acc a) := by
  have E := Enriched.resRel (NewPreset ft ft')
  cases a with
  | nv p v =>
    have hv := fun x => value_enriched (base := base) (hl := hl) (msg := msg) hle hc (ha.2 p v rfl) x
    simp only [inertStep]
    repeat' first
      | exact E.refl _
      | exact E.bind (hv _) fun _ _ => E.refl _
      | split
  | list p ts =>
    by_cases hp : p = hooqPath "method"
    · have hm : Method.parse c ts = Method.parse c' ts := by
        rcases ha.1 with rfl | h
        · rfl
        · exact parse_noBang (h ts (by rw [hp])) c c'
      simp only [inertStep, if_pos hp, featured, hm]
      exact E.refl _
    · simp only [inertStep, if_neg hp, featured]
      exact E.refl _
  | path p =>
    simp only [inertStep]
    exact E.refl _

theorem extract_enriched (hle : ∀ n, ft.Offers n → ft'.Offers n) (hc : c = c' ∨ TomlNoBang T toml) :
    ∀ {attrs : List Attr}, (∀ a ∈ attrs, AttrSafe ft ft' c c' toml a) → ∀ acc : Inert,
    Enriched (NewPreset ft ft') (extractFrom (featured base T hl msg toml ft c) acc attrs)
      (extractFrom (featured base T hl msg toml ft' c') acc attrs)
  | [], _, _ => .same _
  | a :: rest, h, acc => by
    have E := Enriched.resRel (NewPreset ft ft')
    simp only [extractFrom]
    refine E.bind (step_enriched hle hc (h a (by simp)) acc) fun x _ => ?_
    exact E.bind (extract_enriched hle hc (fun b hb => h b (List.mem_cons_of_mem _ hb)) x.1) fun _ _ => E.refl _

theorem featured_envRel (hle : ∀ n, ft.Offers n → ft'.Offers n) (hc : c = c' ∨ TomlNoBang T toml) :
    EnvRel (@Enriched (NewPreset ft ft')) Eq (AttrSafe ft ft' c c' toml) (featured base T hl msg toml ft c)
      (featured base T hl msg toml ft' c') :=
  .ofEq (Enriched.resRel _) rfl rfl fun attrs h ctx => by
    simp only [handleAttrs, extract]
    exact (Enriched.resRel _).bind (extract_enriched hle hc h {}) fun _ _ => .same _

/-! ## The root attribute -/

theorem rootStep_enriched {a : Meta} (r : RootAttr) :
    Enriched (NewPreset ft ft') (rootStep (featured base T hl msg toml ft c) r a)
      (rootStep (featured base T hl msg toml ft' c') r a) := by
  have E := Enriched.resRel (NewPreset ft ft')
  cases a with
  | path p => simp only [rootStep]; exact E.refl _
  | list p ts =>
    simp only [rootStep]
    split
    · exact E.refl _
    · exact .help
  | nv p v =>
    simp only [rootStep]
    split
    · split
      · exact E.refl _
      · exact .help
    · exact .help

theorem parseRoot_enriched : ∀ {args : List Meta} (r : RootAttr),
    Enriched (NewPreset ft ft') (parseRoot (featured base T hl msg toml ft c) r args)
      (parseRoot (featured base T hl msg toml ft' c') r args)
  | [], r => .same _
  | a :: rest, r => by
    simp only [parseRoot]
    exact (Enriched.resRel _).bind (rootStep_enriched r) fun r _ => parseRoot_enriched r

/-- The flavor of the root attribute is one that an argument mentions. -/
theorem parseRoot_flavor {env : Env} : ∀ {args : List Meta} {r r' : RootAttr}, parseRoot env r args = .ok r' →
    ∀ {path : List String} {n : String}, r'.flavor = some path → path.head? = some n →
    r.flavor = some path ∨ ∃ a ∈ args, a.Mentions n
  | [], r, r', h, path, n, h1, h2 => by
    simp only [parseRoot, Except.ok.injEq] at h
    rw [h]; exact .inl h1
  | a :: rest, r, r', h, path, n, h1, h2 => by
    simp only [parseRoot] at h
    obtain ⟨r1, g, h⟩ := except_bind_ok h
    rcases parseRoot_flavor h h1 h2 with h3 | ⟨b, hb, hm⟩
    · obtain ⟨rest', rfl⟩ : ∃ rest, path = n :: rest := by
        cases path with
        | nil => simp at h2
        | cons a l => simp at h2; exact ⟨l, by rw [h2]⟩
      cases a with
      | path p =>
        simp only [rootStep] at g
        cases hp : flavorPathOfPath p with
        | error e => simp [hp, Except.mapError, bind, Except.bind] at g
        | ok l =>
          simp only [hp, Except.mapError, bind, Except.bind, Except.ok.injEq] at g
          split at g
          · rw [← g] at h3; exact .inl h3
          · rw [← g] at h3
            simp only [Option.some.injEq] at h3
            exact .inr ⟨_, by simp, .inl ⟨p, rest', rfl, by rw [hp, h3]⟩⟩
      | list p ts =>
        simp only [rootStep] at g
        split at g
        · split at g
          · simp only [Except.ok.injEq] at g; rw [← g] at h3; exact .inl h3
          · simp at g
        · simp at g
      | nv p v =>
        simp only [rootStep] at g
        split at g
        · rename_i s hs
          split at g
          · cases hp : flavorPathOfString s with
            | error e => simp [hp, Except.mapError, bind, Except.bind] at g
            | ok l =>
              simp only [hp, Except.mapError, bind, Except.bind, Except.ok.injEq] at g
              rw [← g] at h3
              simp only [Option.some.injEq] at h3
              exact .inr ⟨_, by simp, .inr ⟨p, v, rfl, .inr ⟨s, rest', hs, by rw [hp, h3]⟩⟩⟩
          · simp at g
        · simp at g
    · exact .inr ⟨b, List.mem_cons_of_mem _ hb, hm⟩

/-! ## The claims -/

/-- **C88** (more presets, consume-question at will).  If every flavor that the features add is
either not mentioned or not in `hooq.toml`, and no method ends in `!` unless the
consume-question feature stays as it is: the result is the same, except that flavors that were
missing may be there now. -/
theorem C88_features (hle : ∀ n, ft.Offers n → ft'.Offers n) {args : List Meta} {i : Item}
    (hc : c = c' ∨ (TomlNoBang T toml ∧ ItemNoBang i))
    (hm : ∀ n, ft'.Offers n → ¬ ft.Offers n → Mentioned args i n → AMap.get? toml n = none) :
    Enriched (fun n => ft'.Offers n ∧ ¬ ft.Offers n)
      (hooqImpls (featured base T hl msg toml ft c) args i)
      (hooqImpls (featured base T hl msg toml ft' c') args i) := by
  have E := Enriched.resRel (NewPreset ft ft')
  have hc1 : c = c' ∨ TomlNoBang T toml := hc.imp id And.left
  have hsafe : (viewItem {} i).Each (AttrSafe ft ft' c c' toml) := by
    apply each_of_sub
    intro p n hp a ha
    refine ⟨hc.imp id fun h ts e => h.2 p n hp ts (e ▸ ha), fun q v e n' hs hn => ?_⟩
    exact hm n' hn.1 hn.2 (.inr ⟨p, n, hp, a, ha, q, v, e, hs⟩)
  change Enriched (NewPreset ft ft') _ _
  simp only [hooqImpls]
  refine E.bind ?_ fun s _ => E.bind ((relItem (featured_envRel hle hc1) i _ hsafe _ _ rfl).run _) fun _ _ => E.refl _
  simp only [rootSettings]
  refine E.bind (parseRoot_enriched _) fun r hr => ?_
  simp only [rootLoad]
  refine E.bind (E.refl _) fun d hd => E.bind (lookup_enriched hle hc1 fun n hn hnew => ?_) fun _ _ => E.refl _
  cases hf : r.flavor with
  | some path =>
    rw [hf] at hn
    rcases parseRoot_flavor hr hf hn with h | h
    · simp at h
    · exact hm n hnew.1 hnew.2 (.inl h)
  | none =>
    rw [hf] at hn
    have : d = ["default"] := by
      rw [show flavorPathOfString "default" = .ok ["default"] from by decide +kernel] at hd
      simpa [Except.mapError] using hd.symm
    subst this
    simp only [Option.getD_none, List.head?_cons, Option.some.injEq] at hn
    subst hn
    exact absurd hnew.1 (by simp [PresetFeatures.Offers])

/-- **C88** (a working program stays as it is). -/
theorem C88_additive (hle : ∀ n, ft.Offers n → ft'.Offers n) {args : List Meta} {i : Item}
    (hc : c = c' ∨ (TomlNoBang T toml ∧ ItemNoBang i))
    (hm : ∀ n, ft'.Offers n → ¬ ft.Offers n → Mentioned args i n → AMap.get? toml n = none)
    {r : List Path × Item} (h : hooqImpls (featured base T hl msg toml ft c) args i = .ok r) :
    hooqImpls (featured base T hl msg toml ft' c') args i = .ok r := by
  have := C88_features (base := base) (hl := hl) (msg := msg) hle hc hm
  rw [h] at this
  generalize hooqImpls (featured base T hl msg toml ft' c') args i = y at this ⊢
  cases this
  rfl

/-- **C88** (consume-question alone).  If no method ends in `!`, the feature makes no
difference, not even to errors. -/
theorem C88_consume {args : List Meta} {i : Item} (ht : TomlNoBang T toml) (hi : ItemNoBang i) :
    hooqImpls (featured base T hl msg toml ft c) args i = hooqImpls (featured base T hl msg toml ft c') args i := by
  have hst := featured_store_consume (base := base) (T := T) (hl := hl) (msg := msg) (toml := toml)
    (ft := ft) c c' (.inr ht)
  have hstep : ∀ acc a, (∀ ts, a = Meta.list (hooqPath "method") ts → ¬ EndsInBang ts) →
      inertStep (featured base T hl msg toml ft c) acc a = inertStep (featured base T hl msg toml ft c') acc a := by
    intro acc a ha
    cases a with
    | nv p v => simp only [inertStep, flavorOfValue, lookupFlavor, hst]
    | list p ts =>
      by_cases hp : p = hooqPath "method"
      · simp only [inertStep, if_pos hp, featured, parse_noBang (ha ts (by rw [hp])) c c']
      · simp only [inertStep, if_neg hp, featured]
    | path p => simp only [inertStep]
  have hex : ∀ attrs : List Attr, (∀ a ∈ attrs, ∀ ts, a = Meta.list (hooqPath "method") ts → ¬ EndsInBang ts) →
      ∀ acc, extractFrom (featured base T hl msg toml ft c) acc attrs
        = extractFrom (featured base T hl msg toml ft c') acc attrs := by
    intro attrs
    induction attrs with
    | nil => intro _ _; rfl
    | cons a l ih =>
      intro h acc
      have := ih fun b hb => h b (List.mem_cons_of_mem _ hb)
      simp only [extractFrom, hstep acc a (h a (by simp)), this]
  have H : EnvRel (@fun α (x y : Except Err α) => x = y) Eq
      (fun a => ∀ ts, a = Meta.list (hooqPath "method") ts → ¬ EndsInBang ts)
      (featured base T hl msg toml ft c) (featured base T hl msg toml ft c') := by
    refine .ofEq ⟨fun _ => rfl, fun h hf => ?_⟩ rfl rfl fun attrs h ctx => by
      simp only [handleAttrs, extract, hex attrs h {}]
    subst h
    rename_i x f g
    cases x with
    | error e => rfl
    | ok a => exact hf a rfl
  have hw := fun ctx => (relItem H i {} (each_of_sub _ fun p n hp a ha ts e => hi p n hp ts (e ▸ ha)) ctx _ rfl).run {}
  have hr : rootSettings (featured base T hl msg toml ft c) args = rootSettings (featured base T hl msg toml ft c') args := by
    have hs : ∀ r a, rootStep (featured base T hl msg toml ft c) r a = rootStep (featured base T hl msg toml ft c') r a := by
      intro r a
      cases a <;> simp only [rootStep, rootHelp, hst] <;> rfl
    have hp : ∀ args r, parseRoot (featured base T hl msg toml ft c) r args
        = parseRoot (featured base T hl msg toml ft c') r args := by
      intro args
      induction args with
      | nil => intro r; rfl
      | cons a l ih => intro r; simp only [parseRoot, hs, ih]
    simp only [rootSettings, hp, rootLoad, lookupFlavor, hst]
  simp only [hooqImpls, hr, hw]

end

/-! ## The choice of features -/

theorem step_incl {table : List (String × List String)} {on : List String} {f : String} (h : f ∈ on) :
    f ∈ featureStep table on := by simp [featureStep, h]

theorem step_iff {table : List (String × List String)} {on : List String} {g : String} :
    g ∈ featureStep table on ↔ g ∈ on ∨ ∃ f l, f ∈ on ∧ (f, l) ∈ table ∧ g ∈ l := by
  simp only [featureStep, List.mem_append, List.mem_flatten, List.mem_filterMap, Prod.exists,
    Option.ite_none_right_eq_some, Option.some.injEq, List.contains_eq_mem, decide_eq_true_eq]
  constructor
  · rintro (h | ⟨l, ⟨f, l', h1, h2, rfl⟩, h3⟩)
    · exact .inl h
    · exact .inr ⟨f, l', h2, h1, h3⟩
  · rintro (h | ⟨f, l, h1, h2, h3⟩)
    · exact .inl h
    · exact .inr ⟨l, ⟨f, l, h2, h1, rfl⟩, h3⟩

/-- Several steps. -/
def featureSteps (table : List (String × List String)) (on : List String) : Nat → List String
  | 0 => on
  | k + 1 => featureStep table (featureSteps table on k)

theorem featuresOn_eq (table : List (String × List String)) (selected : List String) :
    featuresOn table selected = featureSteps table selected table.length := by
  simp only [featuresOn]
  generalize table.length = n
  induction n with
  | zero => rfl
  | succ n ih => rw [List.range_succ, List.foldl_append, ih]; rfl

theorem steps_incl {table : List (String × List String)} {on : List String} {f : String} {k n : Nat} (hk : k ≤ n)
    (h : f ∈ featureSteps table on k) : f ∈ featureSteps table on n := by
  induction n with
  | zero => rwa [Nat.le_zero.1 hk] at h
  | succ n ih =>
    rcases Nat.lt_or_ge n k with h' | h'
    · rwa [show k = n + 1 by omega] at h
    · exact step_incl (ih h')

theorem steps_sound {table : List (String × List String)} {selected : List String} {k : Nat} : ∀ {f : String},
    f ∈ featureSteps table selected k → On table selected f := by
  induction k with
  | zero => intro f h; exact .selected h
  | succ k ih =>
    intro g h
    rcases step_iff.1 h with h | ⟨f, l, h1, h2, h3⟩
    · exact ih h
    · exact .implied (ih h1) h2 h3

/-- How far below the choosable features a feature of the table lies. -/
def featureRank (f : String) : Nat :=
  if f ∈ ["hooq-macros/anyhow", "hooq-macros/consume-question", "hooq-macros/eyre", "hooq-macros/log",
      "hooq-macros/tracing"] then 2
  else if f ∈ ["anyhow", "consume-question", "eyre", "log", "tracing"] then 1
  else 0

theorem hooqFeatures_rank : ∀ r ∈ hooqFeatures, ∀ g ∈ r.2, featureRank r.1 + 1 ≤ featureRank g := by
  decide +kernel

/-- **C88** (choice of features).  The features that are switched on are those selected and
those that these ask for, directly or not. -/
theorem C88_on {selected : List String} {f : String} :
    f ∈ featuresOn hooqFeatures selected ↔ On hooqFeatures selected f := by
  rw [featuresOn_eq]
  constructor
  · exact steps_sound
  · intro h
    have : f ∈ featureSteps hooqFeatures selected (featureRank f) := by
      induction h with
      | selected h => exact steps_incl (Nat.zero_le _) h
      | implied h1 h2 h3 ih => exact steps_incl (hooqFeatures_rank _ h2 _ h3) (step_iff.2 (.inr ⟨_, _, ih, h2, h3⟩))
    refine steps_incl ?_ this
    simp only [featureRank]
    split
    · decide
    · split <;> decide

theorem On.mono {table : List (String × List String)} {sel sel' : List String} (h : ∀ f ∈ sel, f ∈ sel') {f : String}
    (hf : On table sel f) : On table sel' f := by
  induction hf with
  | selected h1 => exact .selected (h _ h1)
  | implied _ h2 h3 ih => exact .implied ih h2 h3

theorem presetsOn_mono {sel sel' : List String} (h : ∀ f ∈ sel, f ∈ sel') (n : String)
    (hn : (presetsOn sel).Offers n) : (presetsOn sel').Offers n := by
  have key : ∀ f, f ∈ featuresOn hooqFeatures sel → f ∈ featuresOn hooqFeatures sel' :=
    fun f hf => C88_on.2 ((C88_on.1 hf).mono h)
  simp only [PresetFeatures.Offers, presetsOn, List.contains_eq_mem, decide_eq_true_eq] at hn ⊢
  rcases hn with ⟨a, b⟩ | ⟨a, b⟩ | ⟨a, b⟩ | ⟨a, b⟩
  · exact .inl ⟨a, key _ b⟩
  · exact .inr (.inl ⟨a, key _ b⟩)
  · exact .inr (.inr (.inl ⟨a, key _ b⟩))
  · exact .inr (.inr (.inr ⟨a, key _ b⟩))

/-- **C88** (selecting more features).  A program that expands under some features expands in
the same way if more are selected, provided that `hooq.toml` has no table for a flavor that is
mentioned and only now comes with a feature, and that no method ends in `!`. -/
theorem C88_selected {base : Env} {T : TomlEnv} {hl : List TT} {msg : TomlErr → String} {toml : AMap Table}
    {sel sel' : List String} (hsel : ∀ f ∈ sel, f ∈ sel') {args : List Meta} {i : Item}
    (ht : TomlNoBang T toml) (hi : ItemNoBang i)
    (hm : ∀ n, (presetsOn sel').Offers n → ¬ (presetsOn sel).Offers n → Mentioned args i n →
      AMap.get? toml n = none)
    {r : List Path × Item}
    (h : hooqImpls (featured base T hl msg toml (presetsOn sel) (consumeOn sel)) args i = .ok r) :
    hooqImpls (featured base T hl msg toml (presetsOn sel') (consumeOn sel')) args i = .ok r :=
  C88_additive (presetsOn_mono hsel) (.inr ⟨ht, hi⟩) hm h

theorem on_iff {table : List (String × List String)} {sel : List String} {g : String} :
    On table sel g ↔ g ∈ sel ∨ ∃ r ∈ table, g ∈ r.2 ∧ On table sel r.1 := by
  constructor
  · intro h
    cases h with
    | selected h => exact .inl h
    | implied h1 h2 h3 => exact .inr ⟨_, h2, h3, h1⟩
  · rintro (h | ⟨r, h2, h3, h1⟩)
    · exact .selected h
    · exact .implied h1 h2 h3

/-- **C88** (the table in the reference).  A preset comes with its own feature, with `default`
and with `full`; a trailing `!` is looked at with `consume-question` and with `full`. -/
theorem C88_table {sel : List String} (hsel : ∀ f ∈ sel, ∃ r ∈ hooqFeatures, f = r.1) (n : String) :
    ((presetsOn sel).Offers n ↔
      (n = "log" ∧ ("log" ∈ sel ∨ "default" ∈ sel ∨ "full" ∈ sel)) ∨
      (n = "anyhow" ∧ ("anyhow" ∈ sel ∨ "default" ∈ sel ∨ "full" ∈ sel)) ∨
      ((n = "eyre" ∨ n = "color_eyre") ∧ ("eyre" ∈ sel ∨ "default" ∈ sel ∨ "full" ∈ sel)) ∨
      (n = "tracing" ∧ ("tracing" ∈ sel ∨ "default" ∈ sel ∨ "full" ∈ sel))) ∧
    (consumeOn sel = true ↔ "consume-question" ∈ sel ∨ "full" ∈ sel) := by
  have no : ∀ f, (∀ r ∈ hooqFeatures, f ≠ r.1) → f ∉ sel := fun f h hf => by
    obtain ⟨r, hr, e⟩ := hsel f hf
    exact h r hr e
  have inv : ∀ g (P : String → Prop), (∃ r ∈ hooqFeatures, g ∈ r.2 ∧ P r.1) ↔
      (g = "hooq-macros/anyhow" ∧ P "anyhow") ∨ (g = "hooq-macros/consume-question" ∧ P "consume-question") ∨
      (g ∈ ["anyhow", "log", "tracing", "eyre"] ∧ P "default") ∨ (g = "hooq-macros/eyre" ∧ P "eyre") ∨
      (g ∈ ["anyhow", "log", "tracing", "eyre", "consume-question"] ∧ P "full") ∨
      (g = "hooq-macros/log" ∧ P "log") ∨ (g = "hooq-macros/tracing" ∧ P "tracing") := by
    intro g P
    simp only [hooqFeatures, List.mem_cons, List.not_mem_nil, or_false, exists_eq_or_imp, exists_eq_left]
  have d : On hooqFeatures sel "default" ↔ "default" ∈ sel := by rw [on_iff, inv]; simp
  have u : On hooqFeatures sel "full" ↔ "full" ∈ sel := by rw [on_iff, inv]; simp
  have a1 : On hooqFeatures sel "hooq-macros/log" ↔ "log" ∈ sel ∨ "default" ∈ sel ∨ "full" ∈ sel := by
    rw [on_iff, inv]
    simp only [no "hooq-macros/log" (by decide +kernel)]
    simp
    rw [on_iff, inv]
    simp [d, u]
  have a2 : On hooqFeatures sel "hooq-macros/anyhow" ↔ "anyhow" ∈ sel ∨ "default" ∈ sel ∨ "full" ∈ sel := by
    rw [on_iff, inv]
    simp only [no "hooq-macros/anyhow" (by decide +kernel)]
    simp
    rw [on_iff, inv]
    simp [d, u]
  have a3 : On hooqFeatures sel "hooq-macros/eyre" ↔ "eyre" ∈ sel ∨ "default" ∈ sel ∨ "full" ∈ sel := by
    rw [on_iff, inv]
    simp only [no "hooq-macros/eyre" (by decide +kernel)]
    simp
    rw [on_iff, inv]
    simp [d, u]
  have a4 : On hooqFeatures sel "hooq-macros/tracing" ↔ "tracing" ∈ sel ∨ "default" ∈ sel ∨ "full" ∈ sel := by
    rw [on_iff, inv]
    simp only [no "hooq-macros/tracing" (by decide +kernel)]
    simp
    rw [on_iff, inv]
    simp [d, u]
  have a5 : On hooqFeatures sel "hooq-macros/consume-question" ↔ "consume-question" ∈ sel ∨ "full" ∈ sel := by
    rw [on_iff, inv]
    simp only [no "hooq-macros/consume-question" (by decide +kernel)]
    simp
    rw [on_iff, inv]
    simp [u]
  simp only [PresetFeatures.Offers, presetsOn, consumeOn, List.contains_eq_mem, decide_eq_true_eq, C88_on, a1, a2,
    a3, a4, a5, and_self]

/-! ## Witnesses -/

section
open Ex
set_option maxRecDepth 10000

/-- A lexer for the sample: only `.x()` and `.x()!` are known. -/
def sampleToml : TomlEnv where
  consume := false
  parsePath := fun _ => none
  lex := fun s =>
    if s = ".x()" then some [tkP '.', tkId "x", tkParen []]
    else if s = ".x()!" then some [tkP '.', tkId "x", tkParen [], tkP '!']
    else none
  parseExpr := fun _ => none

/-- `fn f() -> Result { #[hooq::method = F] a? }` -/
def oneQuestion (flavor : String) : Item :=
  .fn [] { ident := "f", output := result, text := "fn f () -> Result" }
    [.expr (quest [.nv (hooqPath "method") { view := .litStr flavor, text := flavor }] (var "a" 2) 2) true]

/-- The first words of the methods put on the operand of the `?`. -/
def hookWords (x : Except Err (List Path × Item)) : Option (List (List String)) :=
  match x with
  | .error _ => none
  | .ok r => (r.2.tree.sub [0, 0]).map fun n => n.hooks.map fun hk => hk.toks.filterMap fun t =>
      match t with
      | .ident s _ => some s
      | .punct c _ => some c.toString
      | _ => none

/-- The file `[mine] method = ".x()"`. -/
def mineToml : AMap Table := [("mine", .mk { method := some ".x()" } [])]

/-- The expansion of the sample under the features `sel`. -/
def sampleRun (toml : AMap Table) (flavor : String) (sel : List String) : Except Err (List Path × Item) :=
  hooqImpls (featured env sampleToml [tkId "h"] (fun _ => "") toml (presetsOn sel) (consumeOn sel)) []
    (oneQuestion flavor)

theorem oneQuestion_noBang (flavor : String) : ItemNoBang (oneQuestion flavor) := by
  rintro p n hp ts ha
  match p, hp with
  | [], hp => simp [oneQuestion, Item.tree, viewItem, hnode, RTree.sub] at hp; subst hp; simp [RTree.data] at ha
  | [0], hp =>
    simp [oneQuestion, Item.tree, viewItem, viewStmts, viewStmt, viewE, viewK, quest, var, hnode, RTree.sub] at hp
    subst hp
    simp [RTree.data] at ha
  | [0, 0], hp =>
    simp [oneQuestion, Item.tree, viewItem, viewStmts, viewStmt, viewE, viewK, quest, var, hnode, onode, RTree.sub] at hp
    subst hp
    simp [RTree.data] at ha
  | 0 :: 0 :: (k + 1) :: q, hp | 0 :: 0 :: 0 :: q, hp | 0 :: (k + 1) :: q, hp | (k + 1) :: q, hp =>
    simp [oneQuestion, Item.tree, viewItem, viewStmts, viewStmt, viewE, viewK, quest, var, hnode, onode, RTree.sub] at hp

theorem mineToml_noBang : TomlNoBang sampleToml mineToml := by
  intro m hm ts hts
  simp only [mineToml, tablesMethods, Table.methods, Option.toList, List.append_nil, List.mem_singleton] at hm
  subst hm
  simp only [sampleToml, if_pos, Option.some.injEq] at hts
  subst hts
  rintro ⟨l, sp, h⟩
  have := congrArg List.getLast? h
  simp [openedAll, TT.opened, tkP, tkId, tkParen] at this

/-- The hypotheses of `C88_selected` can be met: the sample expands with `log` alone, and with
all features. -/
example : hookWords (sampleRun mineToml "mine" ["log"]) = some [[".", "x"]] ∧
    hookWords (sampleRun mineToml "mine" ["log", "full"]) = some [[".", "x"]] ∧
    ∀ r, sampleRun mineToml "mine" ["log"] = .ok r → sampleRun mineToml "mine" ["log", "full"] = .ok r := by
  refine ⟨by decide +kernel, by decide +kernel, fun r h => ?_⟩
  refine C88_selected (fun f hf => by simp_all) mineToml_noBang (oneQuestion_noBang _) (fun n h1 h2 h3 => ?_) h
  simp only [PresetFeatures.Offers] at h1
  rcases h1 with ⟨rfl, -⟩ | ⟨rfl, -⟩ | ⟨rfl | rfl, -⟩ | ⟨rfl, -⟩ <;> rfl

/-- A flavor that is missing without its feature. -/
example : hookWords (sampleRun mineToml "anyhow" ["log"]) = none ∧
    hookWords (sampleRun mineToml "anyhow" ["log", "anyhow"]) = some [[".", "with_context"]] := by
  decide +kernel

/-- **C88** (what is left out, 1).  A table of `hooq.toml` for a flavor that comes with a feature:
selecting the feature changes a program that worked. -/
theorem C88_own_table : ∃ toml flavor,
    hookWords (sampleRun toml flavor []) = some [[".", "inspect_err"]] ∧
    hookWords (sampleRun toml flavor ["anyhow"]) = some [[".", "with_context"]] :=
  ⟨[("anyhow", .mk { hookTargets := some ["?"] } [])], "anyhow", by decide +kernel, by decide +kernel⟩

/-- **C88** (what is left out, 2).  A method that ends in `!`: the feature decides whether the
`!` belongs to what is inserted.  (The parser of the sample accepts everything.) -/
theorem C88_bang : ∃ toml flavor,
    hookWords (sampleRun toml flavor []) = some [[".", "x", "!"]] ∧
    hookWords (sampleRun toml flavor ["consume-question"]) = some [[".", "x"]] :=
  ⟨[("mine", .mk { method := some ".x()!" } [])], "mine", by decide +kernel, by decide +kernel⟩

end

end Hooq
