import Verif.Spec.TomlExact
import Verif.Props.TomlDoc
import Verif.Proof.FirstError

/-!
# Exactly which files are accepted, and what they make of the flavors (C75)
-/

namespace Hooq

/-! ## Which tables are accepted -/

theorem mapM_none {α β : Type} {f : α → Option β} : ∀ {l : List α}, l.mapM f = none ↔ ∃ x ∈ l, f x = none
  | [] => by simp
  | x :: l => by
    rw [List.mapM_cons]
    have ih := mapM_none (f := f) (l := l)
    cases hx : f x with
    | none => simp [hx]
    | some y =>
      cases hl : l.mapM f with
      | none => simp only [hl] at ih; simpa [hx] using ih
      | some r => simp only [hl] at ih; simpa [hx] using ih

theorem parseBindings_none {env : TomlEnv} {b : List (String × String)} :
    parseBindings env b = none ↔ ∃ x ∈ b, env.parseExpr x.2 = none := by
  constructor
  · intro h
    by_contra hn
    push Not at hn
    obtain ⟨l, hl⟩ := parseBindings_of (env := env) (b := b) fun x hx => Option.isSome_iff_ne_none.2 (hn x hx)
    rw [hl] at h; cases h
  · rintro ⟨x, hx, hn⟩
    cases h : parseBindings env b with
    | none => rfl
    | some l =>
      have := (parseBindings_some h).2.2 x hx
      rw [hn] at this; cases this

theorem applyFields_error {env : TomlEnv} {t : TableFields} {s : Settings} {e : TomlErr} {q : List String}
    (h : applyFields env t s = .error e) : Defect env q t e := by
  simp only [applyFields] at h
  rcases except_bind_err h with h1 | ⟨tu, -, h⟩
  · simp only [fieldTraitUses] at h1
    split at h1
    · cases h1
    · rename_i hn
      obtain rfl := Except.error.inj h1
      exact mapM_none.1 hn
  rcases except_bind_err h with h1 | ⟨m, -, h⟩
  · simp only [fieldMethod] at h1
    split at h1
    · split at h1
      · cases h1
      · rename_i hn
        obtain rfl := Except.error.inj h1
        exact ⟨_, ‹_›, hn⟩
    · cases h1
  rcases except_bind_err h with h1 | ⟨tg, -, h⟩
  · simp only [fieldTargets] at h1
    split at h1
    · split at h1
      · cases h1
      · rename_i hn
        obtain rfl := Except.error.inj h1
        obtain ⟨pre, post, h2, h3, h4⟩ := (C29_first_unknown _ _).1 hn
        exact ⟨_, pre, post, ‹_›, h2, h3, h4⟩
    · cases h1
  rcases except_bind_err h with h1 | ⟨b, -, h⟩
  · simp only [fieldBindings] at h1
    split at h1
    · cases h1
    · rename_i hn
      obtain rfl := Except.error.inj h1
      exact parseBindings_none.1 hn
  · cases h

theorem applyFields_no_defect {env : TomlEnv} {t : TableFields} {s s' : Settings} {q : List String}
    (h : applyFields env t s = .ok s') : ∀ e, Defect env q t e → e = .emptyName ∨ e = .overrideEmpty := by
  obtain ⟨h1, h2, h3, h4, -⟩ := applyFields_ok h
  intro e hd
  cases e with
  | emptyName => exact .inl rfl
  | overrideEmpty => exact .inr rfl
  | traitUses =>
    simp only [fieldTraitUses, mapM_none.2 hd] at h1
    cases h1
  | method =>
    obtain ⟨x, hx, hl⟩ := hd
    simp only [fieldMethod, hx, hl] at h2
    cases h2
  | hookTargets x =>
    obtain ⟨l, pre, post, hl, hd⟩ := hd
    simp only [fieldTargets, hl, (C29_first_unknown l x).2 ⟨pre, post, hd⟩] at h3
    cases h3
  | bindings =>
    simp only [fieldBindings, parseBindings_none.2 hd] at h4
    cases h4

theorem getLast?_cons_ne {n : String} {q : List String} (hq : q ≠ []) : (n :: q).getLast? = q.getLast? := by
  cases q with
  | nil => exact absurd rfl hq
  | cons x q => simp [List.getLast?_cons_cons]

/-- A defect in a table does not depend on the components before the last. -/
theorem Defect.cons {env : TomlEnv} {q : List String} {t : TableFields} {e : TomlErr} (n : String) (hq : q ≠ [])
    (h : Defect env q t e) : Defect env (n :: q) t e := by
  cases e <;> simp only [Defect, getLast?_cons_ne hq] at h ⊢ <;> exact h

theorem Defect.of_cons {env : TomlEnv} {q : List String} {t : TableFields} {e : TomlErr} {n : String} (hq : q ≠ [])
    (h : Defect env (n :: q) t e) : Defect env q t e := by
  cases e <;> simp only [Defect, getLast?_cons_ne hq] at h ⊢ <;> exact h

mutual
theorem applyTable_error {env : TomlEnv} : ∀ (t : Table) {f : Flavor} {e : TomlErr} {n : String}, t.Uniq →
    applyTable env f t = .error e →
    Defect env [n] t.fields e ∨ ∃ q u, tableAt t.subs q = some u ∧ Defect env q u.fields e
  | .mk fields subs, f, e, n, hu, h => by
    simp only [applyTable] at h
    rcases except_bind_err h with h1 | ⟨s, -, h⟩
    · exact .inl (applyFields_error h1)
    rcases except_bind_err h with h1 | ⟨s, -, h⟩
    · exact .inr (updateFlavors_error subs hu.2.1 hu.2.2 h1)
    · cases h
theorem updateFlavors_error {env : TomlEnv} : ∀ (ts : List (String × Table)) {m : FlavorMap} {base : Flavor}
    {e : TomlErr}, (AMap.keys ts).Nodup → TablesUniq ts → updateFlavors env m base ts = .error e →
    ∃ q u, tableAt ts q = some u ∧ Defect env q u.fields e
  | [], _, _, _, _, _, h => by simp [updateFlavors] at h
  | (name, t) :: rest, m, base, e, hk, hu, h => by
    have hget : AMap.get? ((name, t) :: rest) name = some t := by simp [AMap.get?]
    have htop : tableAt ((name, t) :: rest) [name] = some t := by
      simp [tableAt, hget, Table.descend]
    simp only [updateFlavors] at h
    split at h
    · rename_i h0
      obtain rfl := Except.error.inj h
      exact ⟨_, _, htop, by simp [Defect, h0]⟩
    split at h
    · rename_i h0
      obtain rfl := Except.error.inj h
      exact ⟨_, _, htop, by simp [Defect, h0]⟩
    rcases except_bind_err h with h1 | ⟨f, -, h⟩
    · rcases applyTable_error t (n := name) hu.1 h1 with hd | ⟨q, u, hq, hd⟩
      · exact ⟨_, _, htop, hd⟩
      · have hne : q ≠ [] := by rintro rfl; simp [tableAt] at hq
        exact ⟨name :: q, u, by rw [tableAt_cons hget hne]; exact hq, hd.cons name hne⟩
    · simp only [AMap.keys, List.map_cons, List.nodup_cons] at hk
      obtain ⟨q, u, hq, hd⟩ := updateFlavors_error rest hk.2 hu.2 h
      refine ⟨q, u, ?_, hd⟩
      cases q with
      | nil => simp [tableAt] at hq
      | cons n q =>
        obtain ⟨v, hv, -⟩ := tableAt_sub hq
        have hmem := (AMap.mem_iff_get? rest hk.2 n v).2 hv
        have hne : name ≠ n := by
          rintro rfl
          exact hk.1 (List.mem_map_of_mem (f := Prod.fst) hmem)
        simp only [tableAt, AMap.get?, if_neg hne] at hq ⊢
        exact hq
end

theorem update_no_defect {env : TomlEnv} {q : List String} : ∀ {toml : AMap Table} {m m' : FlavorMap} {base : Flavor},
    UniqToml toml → updateFlavors env m base toml = .ok m' →
    ∀ t e, tableAt toml q = some t → ¬ Defect env q t.fields e := by
  induction q with
  | nil => intro _ _ _ _ _ _ t e h; simp [tableAt] at h
  | cons n q ih =>
    intro toml m m' base hu h t e ht hd
    obtain ⟨u, h1, h2⟩ := tableAt_sub ht
    have hmem := (AMap.mem_iff_get? toml hu.1 n u).2 h1
    obtain ⟨g1, g2, f, g3, -⟩ := update_ok hu.1 h n u hmem
    obtain ⟨k1, k2⟩ := applyTable_ok g3
    rcases h2 with ⟨rfl, rfl⟩ | ⟨hq, h2⟩
    · rcases applyFields_no_defect k1 e hd with rfl | rfl
      · simp only [Defect, List.getLast?_singleton, Option.some.injEq] at hd; exact g1 hd
      · simp only [Defect, List.getLast?_singleton, Option.some.injEq] at hd; exact g2 hd
    · exact ih (tables_uniq_mem hu.2 hmem).subs_toml k2 t e h2 (hd.of_cons hq)

/-- C75.  A file is accepted exactly if no table, at any depth, has a defect: an empty name,
the name `empty`, a trait path, method or binding that does not parse, an unknown target. -/
theorem C75_accepted {env : TomlEnv} {dflt : Settings} {m : FlavorMap} {toml : AMap Table} (hu : UniqToml toml) :
    (∃ m', applyToml env dflt m toml = .ok m') ↔
      ∀ q t e, tableAt toml q = some t → ¬ Defect env q t.fields e := by
  constructor
  · rintro ⟨m', h⟩ q t e ht
    exact update_no_defect hu h t e ht
  · intro h
    cases hc : applyToml env dflt m toml with
    | ok m' => exact ⟨m', rfl⟩
    | error e =>
      obtain ⟨q, u, hq, hd⟩ := updateFlavors_error toml hu.1 hu.2 hc
      exact absurd hd (h q u e hq)

/-- C75.  The error reported is a defect of some table. -/
theorem C75_reported {env : TomlEnv} {dflt : Settings} {m : FlavorMap} {toml : AMap Table} (hu : UniqToml toml)
    {e : TomlErr} (h : applyToml env dflt m toml = .error e) :
    ∃ q t, tableAt toml q = some t ∧ Defect env q t.fields e := updateFlavors_error toml hu.1 hu.2 h

/-! ## What is there afterwards -/

theorem SameSettings.symm' {s s' : Settings} (h : SameSettings s s') : SameSettings s' s :=
  ⟨h.1.symm, h.2.symm, h.3.symm, h.4.symm, h.5.symm, h.6.symm, h.7.symm, fun k => (h.8 k).symm⟩

/-- What a table gives is determined up to the order of bindings. -/
theorem FieldsOver.unique {env : TomlEnv} {t : TableFields} {o o' s s' : Settings} (ho : SameSettings o o')
    (h : FieldsOver env t o s) (h' : FieldsOver env t o' s') : SameSettings s s' := by
  constructor
  · have := h.traitUses.symm.trans h'.traitUses
    exact List.map_injective_iff.2 (fun _ _ => Option.some.inj) this
  · have h1 := h.method
    have h2 := h'.method
    cases hm : t.method with
    | none => simp only [hm] at h1 h2; rw [h1, h2, ho.method]
    | some x =>
      simp only [hm] at h1 h2
      obtain ⟨ts, e1, e2⟩ := h1
      obtain ⟨ts', e1', e2'⟩ := h2
      rw [e1] at e1'
      cases e1'
      rw [e2, e2']
  · have h1 := h.targets
    have h2 := h'.targets
    cases hm : t.hookTargets with
    | none => simp only [hm] at h1 h2; rw [h1, h2, ho.targets]
    | some x =>
      simp only [hm] at h1 h2
      have hk : ∀ k, s.targets.has k = s'.targets.has k := fun k => by
        rw [Bool.eq_iff_iff, h1.2 k, h2.2 k]
      have a := hk .question
      have b := hk .ret
      have c := hk .tail
      cases hs : s.targets; cases hs' : s'.targets
      simp only [hs, hs', Targets.has] at a b c
      simp [a, b, c]
  · have h1 := h.tailIdents
    have h2 := h'.tailIdents
    cases hm : t.tailIdents with
    | none => simp only [hm] at h1 h2; rw [h1, h2, ho.tailIdents]
    | some x => simp only [hm] at h1 h2; rw [h1, h2]
  · have h1 := h.ignoreIdents
    have h2 := h'.ignoreIdents
    split at h1
    · rename_i hc
      rw [if_pos hc] at h2
      rw [h1, h2, ho.ignoreIdents]
    · rename_i hc
      rw [if_neg hc] at h2
      rw [h1, h2]
  · have h1 := h.resultTypes
    have h2 := h'.resultTypes
    cases hm : t.resultTypes with
    | none => simp only [hm] at h1 h2; rw [h1, h2, ho.resultTypes]
    | some x => simp only [hm] at h1 h2; rw [h1, h2]
  · have h1 := h.hookInMacros
    have h2 := h'.hookInMacros
    cases hm : t.hookInMacros with
    | none => simp only [hm] at h1 h2; rw [h1, h2, ho.hookInMacros]
    | some x => simp only [hm] at h1 h2; rw [h1, h2]
  · intro k
    have h1 := h.bindings k
    have h2 := h'.bindings k
    cases hm : AMap.get? t.bindings k with
    | none => simp only [hm] at h1 h2; rw [h1, h2, ho.bindings k]
    | some x =>
      simp only [hm] at h1 h2
      obtain ⟨v, e1, e2⟩ := h1
      obtain ⟨v', e1', e2'⟩ := h2
      rw [e1] at e1'
      cases e1'
      rw [e2, e2']

theorem SameSettings.rfl' {s : Settings} : SameSettings s s := ⟨rfl, rfl, rfl, rfl, rfl, rfl, rfl, fun _ => rfl⟩

theorem gives_unique {env : TomlEnv} {q : List String} : ∀ {m : FlavorMap} {base base' : Flavor} {toml : AMap Table}
    {s s' : Settings}, UniqMap m → base.Uniq → base.subs = base'.subs → SameSettings base.settings base'.settings →
    Gives env m base toml q s → Gives env m base' toml q s' → SameSettings s s' := by
  induction q with
  | nil => intro _ _ _ _ _ _ _ _ _ _ h; cases h
  | cons n q ih =>
    intro m base base' toml s s' hm hb hs hb' h h'
    have ho : SameSettings ((m.get? n).getD base).settings ((m.get? n).getD base').settings := by
      cases m.get? n with
      | none => exact hb'
      | some f => exact .rfl'
    have hos : ((m.get? n).getD base).subs = ((m.get? n).getD base').subs := by
      cases m.get? n with
      | none => exact hs
      | some f => rfl
    cases h with
    | table h1 h2 =>
      cases h' with
      | table g1 g2 =>
        rw [h1] at g1; cases g1
        exact h2.unique ho g2
      | under _ _ g3 => cases g3
      | kept g1 _ => rw [h1] at g1; cases g1
    | under h1 h2 h3 =>
      cases h' with
      | table _ _ => cases h3
      | under g1 g2 g3 =>
        rw [h1] at g1; cases g1
        rw [← hos] at g3
        have hou : ((m.get? n).getD base).Uniq := by
          cases hg : m.get? n with
          | none => exact hb
          | some f => exact uniq_mem hm.2 ((hm.mem_iff _ _).2 hg)
        refine ih hou.subs_map ?_ ?_ ?_ h3 g3
        · exact hou.subs_map
        · rfl
        · exact FieldsOver.unique ho h2 g2
      | kept g1 _ => rw [h1] at g1; cases g1
    | kept h1 h2 =>
      cases h' with
      | table g1 _ => rw [h1] at g1; cases g1
      | under g1 _ _ => rw [h1] at g1; cases g1
      | kept _ g2 => rw [h2.unique hm g2]; exact .rfl'

theorem reaches_gives {env : TomlEnv} {q : List String} : ∀ {m m' : FlavorMap} {base : Flavor} {toml : AMap Table}
    {f : Flavor}, UniqToml toml → UniqMap m → base.Uniq → updateFlavors env m base toml = .ok m' →
    Reaches m' q f → Gives env m base toml q f.settings := by
  induction q with
  | nil => intro _ _ _ _ _ _ _ _ _ h; cases h
  | cons n q ih =>
    intro m m' base toml f hu hm hb h hr
    have hm' := updateFlavors_uniq toml hm hb h
    cases hg : AMap.get? toml n with
    | none =>
      have hk : n ∉ AMap.keys toml := by
        intro hk
        obtain ⟨⟨n', t⟩, h1, rfl⟩ := List.mem_map.1 hk
        rw [(AMap.mem_iff_get? toml hu.1 _ _).1 h1] at hg
        cases hg
      have hn := update_names h n hk
      refine .kept hg ?_
      cases hr with
      | top hmem => exact .top ((hm.mem_iff _ _).2 (hn ▸ (hm'.mem_iff _ _).1 hmem))
      | sub hmem hr => exact .sub ((hm.mem_iff _ _).2 (hn ▸ (hm'.mem_iff _ _).1 hmem)) hr
    | some u =>
      have hmem := (AMap.mem_iff_get? toml hu.1 n u).2 hg
      have huu := tables_uniq_mem hu.2 hmem
      obtain ⟨-, -, f', h3, h4⟩ := update_ok hu.1 h n u hmem
      obtain ⟨k1, k2⟩ := applyTable_ok h3
      have hover := applyFields_over huu.fields_nodup k1
      have hou : ((m.get? n).getD base).Uniq := by
        cases hg : m.get? n with
        | none => exact hb
        | some f => exact uniq_mem hm.2 ((hm.mem_iff _ _).2 hg)
      cases hr with
      | top hf =>
        rw [hm'.mem_iff, h4] at hf
        cases hf
        exact .table hg hover
      | sub hf hr =>
        rw [hm'.mem_iff, h4] at hf
        cases hf
        exact .under hg hover (ih huu.subs_toml hou.subs_map
          (base := .mk f'.settings ((m.get? n).getD base).subs) hou.subs_map k2 hr)

theorem gives_reaches {env : TomlEnv} {q : List String} : ∀ {m m' : FlavorMap} {base base' : Flavor} {toml : AMap Table}
    {s : Settings}, UniqToml toml → UniqMap m → base.Uniq → base.subs = base'.subs →
    updateFlavors env m base toml = .ok m' →
    Gives env m base' toml q s → ∃ f, Reaches m' q f := by
  induction q with
  | nil => intro _ _ _ _ _ _ _ _ _ _ _ h; cases h
  | cons n q ih =>
    intro m m' base base' toml s hu hm hb hs h hr
    have hm' := updateFlavors_uniq toml hm hb h
    have hou : ((m.get? n).getD base).Uniq := by
      cases hg : m.get? n with
      | none => exact hb
      | some f => exact uniq_mem hm.2 ((hm.mem_iff _ _).2 hg)
    have hos : ((m.get? n).getD base).subs = ((m.get? n).getD base').subs := by
      cases m.get? n with
      | none => exact hs
      | some f => rfl
    cases hr with
    | table h1 _ =>
      obtain ⟨-, -, f', -, h4⟩ := update_ok hu.1 h n _ ((AMap.mem_iff_get? toml hu.1 n _).2 h1)
      exact ⟨f', .top ((hm'.mem_iff _ _).2 h4)⟩
    | under h1 _ h3 =>
      have hmem := (AMap.mem_iff_get? toml hu.1 n _).2 h1
      obtain ⟨-, -, f', g3, g4⟩ := update_ok hu.1 h n _ hmem
      rw [← hos] at h3
      have hsub : ∃ f, Reaches f'.subs q f := by
        refine ih (tables_uniq_mem hu.2 hmem).subs_toml hou.subs_map
          (base := .mk f'.settings ((m.get? n).getD base).subs) hou.subs_map ?_ (applyTable_ok g3).2 h3
        rfl
      obtain ⟨f, hf⟩ := hsub
      exact ⟨f, .sub ((hm'.mem_iff _ _).2 g4) hf⟩
    | kept h1 h2 =>
      have hk : n ∉ AMap.keys toml := by
        intro hk
        obtain ⟨⟨n', t⟩, h3, rfl⟩ := List.mem_map.1 hk
        rw [(AMap.mem_iff_get? toml hu.1 _ _).1 h3] at h1
        cases h1
      have hn := update_names h n hk
      cases h2 with
      | top hmem => exact ⟨_, .top ((hm'.mem_iff _ _).2 (hn ▸ (hm.mem_iff _ _).1 hmem))⟩
      | sub hmem hr => exact ⟨_, .sub ((hm'.mem_iff _ _).2 (hn ▸ (hm.mem_iff _ _).1 hmem)) hr⟩

/-- C75.  After an accepted file, a path names a flavor with given settings, up to the order
of bindings, exactly if `Gives` says so. -/
theorem C75_flavors {env : TomlEnv} {dflt : Settings} {m m' : FlavorMap} {toml : AMap Table}
    (hu : UniqToml toml) (hm : UniqMap m) (h : applyToml env dflt m toml = .ok m') (q : List String) (s : Settings) :
    (∃ f, getFlavor m' q = .ok f ∧ SameSettings f.settings s) ↔
      ∃ s', Gives env m (.mk dflt []) toml q s' ∧ SameSettings s' s := by
  have hb : (Flavor.mk dflt []).Uniq := ⟨by simp [AMap.keys], trivial⟩
  have hm' := updateFlavors_uniq toml hm hb h
  constructor
  · rintro ⟨f, hf, hs⟩
    rw [(C34_lookup hm' q).1] at hf
    exact ⟨_, reaches_gives hu hm hb h hf, hs⟩
  · rintro ⟨s', hg, hs⟩
    obtain ⟨f, hf⟩ := gives_reaches hu hm hb rfl h hg
    have := gives_unique hm hb rfl .rfl' (reaches_gives hu hm hb h hf) hg
    refine ⟨f, ((C34_lookup hm' q).1 f).2 hf, ?_⟩
    exact ⟨this.1.trans hs.1, this.2.trans hs.2, this.3.trans hs.3, this.4.trans hs.4, this.5.trans hs.5,
      this.6.trans hs.6, this.7.trans hs.7, fun k => (this.8 k).trans (hs.8 k)⟩

/-- C75.  A new sub-flavor has, besides the settings, all sub-flavors of its parent: below
`log::fatal`, made by `[log.fatal]`, there is `log::fatal::warn` as `log::warn` was before. -/
theorem C75_inherits {env : TomlEnv} {dflt : Settings} {m m' : FlavorMap} {toml : AMap Table}
    (hu : UniqToml toml) (hm : UniqMap m) (h : applyToml env dflt m toml = .ok m') {a n : String} {g : Flavor}
    (hg : Reaches m [a] g) (hn : ∀ x, ¬ Reaches m [a, n] x) {t : Table} (ht : tableAt toml [a, n] = some t)
    {r : List String} {x : Flavor} (hx : Reaches m (a :: r) x) (hr : r ≠ []) (hno : tableAt t.subs r = none) :
    ∃ f, getFlavor m' (a :: n :: r) = .ok f ∧ f.settings = x.settings := by
  have hb : (Flavor.mk dflt []).Uniq := ⟨by simp [AMap.keys], trivial⟩
  have hm' := updateFlavors_uniq toml hm hb h
  obtain ⟨u, h1, h2⟩ := tableAt_sub ht
  rcases h2 with ⟨h2, -⟩ | ⟨-, h2⟩
  · cases h2
  obtain ⟨v, h3, h4⟩ := tableAt_sub h2
  rcases h4 with ⟨-, rfl⟩ | ⟨h4, -⟩
  swap
  · exact absurd rfl h4
  have hga : m.get? a = some g := by
    cases hg with
    | top hmem => exact (hm.mem_iff _ _).1 hmem
    | sub _ hr => cases hr
  have hmem := (AMap.mem_iff_get? toml hu.1 a u).2 h1
  have huu := tables_uniq_mem hu.2 hmem
  obtain ⟨-, -, f', g3, g4⟩ := update_ok hu.1 h a u hmem
  rw [hga] at g3
  have gsub := (applyTable_ok g3).2
  have hmem2 := (AMap.mem_iff_get? u.subs huu.subs_toml.1 n t).2 h3
  obtain ⟨-, -, f2, k3, k4⟩ := update_ok huu.subs_toml.1 gsub n t hmem2
  have hnone : g.subs.get? n = none := by
    cases hc : g.subs.get? n with
    | none => rfl
    | some y =>
      have hgu : g.Uniq := hg.uniq hm
      exact absurd (Reaches.sub ((hm.mem_iff _ _).2 hga) (.top ((hgu.subs_map.mem_iff _ _).2 hc))) (hn y)
  simp only [Option.getD_some] at k3 gsub
  rw [hnone] at k3
  simp only [Option.getD_none] at k3
  have hgu : g.Uniq := hg.uniq hm
  have hx' : Reaches g.subs r x := by
    cases hx with
    | top _ => exact absurd rfl hr
    | sub hmem hr =>
      rw [hm.mem_iff, hga] at hmem
      cases hmem
      exact hr
  have htu := tables_uniq_mem huu.subs_toml.2 hmem2
  obtain ⟨y, y1, y2, -⟩ := update_unmentioned htu.subs_toml (m := g.subs)
    (base := .mk f2.settings g.subs) hgu.subs_map hgu.subs_map (applyTable_ok k3).2 hx' hno
  have hfu : f'.Uniq := uniq_mem hm'.2 ((hm'.mem_iff _ _).2 g4)
  refine ⟨y, ((C34_lookup hm' _).1 y).2 (.sub ((hm'.mem_iff _ _).2 g4) (.sub ((hfu.subs_map.mem_iff _ _).2 k4) y1)), y2⟩

/-! ## Examples -/

/-- An environment in which the text `]` parses as nothing. -/
def Ex.pickyEnv : TomlEnv where
  consume := false
  parsePath := fun s => if s = "]" then none else some (.ofIdents [s])
  lex := fun s => if s = "]" then none else some [tkId s]
  parseExpr := fun s => if s = "]" then none else some ⟨.other, s⟩

/-- `[log.fatal.deep]` with a method that is no token sequence is the only defect. -/
example : ∃ e, applyToml Ex.pickyEnv (defaultSettings false [])
      (presetFlavors false [] ⟨true, true, false, false⟩)
      [("log", .mk {} [("fatal", .mk { method := some "m" } [("deep", .mk { method := some "]" } [])])])] =
        .error e ∧
    Defect Ex.pickyEnv ["log", "fatal", "deep"] { method := some "]" } e :=
  ⟨.method, rfl, _, rfl, rfl⟩

/-- The file `Ex.toml` has no defect. -/
example : ∀ q t e, tableAt Ex.toml q = some t → ¬ Defect Ex.tenv q t.fields e :=
  (C75_accepted (m := presetFlavors false [] ⟨true, true, false, false⟩) (dflt := defaultSettings false [])
    Ex.toml_uniq.1).1 ⟨_, rfl⟩

/-- `[log.fatal]` makes `log::fatal` and, below it, all sub-flavors of `log`. -/
example : ∃ m' f g, applyToml Ex.tenv (defaultSettings false [])
      (presetFlavors false [] ⟨true, true, false, false⟩) Ex.toml = .ok m' ∧
    getFlavor m' ["log", "fatal", "warn"] = .ok f ∧
    getFlavor (presetFlavors false [] ⟨true, true, false, false⟩) ["log", "warn"] = .ok g ∧
    f.settings = g.settings ∧ getFlavor m' ["log", "fatal", "fatal"] = .error (allFlavorNames m') :=
  ⟨_, _, _, rfl, rfl, rfl, rfl, rfl⟩

/-- The hypotheses of `C75_inherits` for `log::fatal::warn`. -/
example : ∃ g x t, Reaches (presetFlavors false [] ⟨true, true, false, false⟩) ["log"] g ∧
    (∀ y, ¬ Reaches (presetFlavors false [] ⟨true, true, false, false⟩) ["log", "fatal"] y) ∧
    tableAt Ex.toml ["log", "fatal"] = some t ∧
    Reaches (presetFlavors false [] ⟨true, true, false, false⟩) ["log", "warn"] x ∧
    tableAt t.subs ["warn"] = none := by
  refine ⟨_, _, _, (inner_iff (uniq_presets _ _ _) _ _).1 rfl, fun y hy => ?_, rfl,
    (inner_iff (uniq_presets _ _ _) _ _).1 rfl, rfl⟩
  have := (inner_iff (uniq_presets _ _ _) _ _).2 hy
  cases this

end Hooq
