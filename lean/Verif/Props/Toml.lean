import Verif.Spec.Toml
import Verif.Proof.Congr
import Verif.Props.FlavorPath
import Verif.Props.Attr

/-!
# hooq.toml (C35 - C38)
-/

namespace Hooq

/-! ## One level -/

theorem update_names {env : TomlEnv} : ∀ {ts : List (String × Table)} {m m' : FlavorMap} {base : Flavor},
    updateFlavors env m base ts = .ok m' → ∀ n, n ∉ AMap.keys ts → m'.get? n = m.get? n
  | [], m, m', base, h, n, _ => by
    simp only [updateFlavors, Except.ok.injEq] at h; rw [h]
  | (name, t) :: rest, m, m', base, h, n, hn => by
    simp only [AMap.keys, List.map_cons, List.mem_cons, not_or] at hn
    simp only [updateFlavors] at h
    split at h
    · simp at h
    split at h
    · simp at h
    obtain ⟨f, h1, h2⟩ := except_bind_ok h
    rw [update_names h2 n hn.2, AMap.get?_insert, if_neg (Ne.symm hn.1)]

theorem update_ok {env : TomlEnv} : ∀ {ts : List (String × Table)} {m m' : FlavorMap} {base : Flavor},
    (AMap.keys ts).Nodup → updateFlavors env m base ts = .ok m' → ∀ n t, (n, t) ∈ ts →
    n ≠ "" ∧ n ≠ "empty" ∧ ∃ f, applyTable env ((m.get? n).getD base) t = .ok f ∧ m'.get? n = some f
  | [], _, _, _, _, _, n, t, hm => by simp at hm
  | (name, u) :: rest, m, m', base, hk, h, n, t, hm => by
    simp only [AMap.keys, List.map_cons, List.nodup_cons] at hk
    simp only [updateFlavors] at h
    split at h
    · simp at h
    rename_i h0
    split at h
    · simp at h
    rename_i h0'
    obtain ⟨f, h1, h2⟩ := except_bind_ok h
    rcases List.mem_cons.1 hm with he | he
    · simp only [Prod.mk.injEq] at he
      obtain ⟨rfl, rfl⟩ := he
      refine ⟨h0, h0', f, h1, ?_⟩
      rw [update_names h2 n hk.1, AMap.get?_insert, if_pos rfl]
    · obtain ⟨g1, g2, f', g3, g4⟩ := update_ok hk.2 h2 n t he
      have hne : name ≠ n := by
        rintro rfl
        exact hk.1 (List.mem_map_of_mem (f := Prod.fst) he)
      rw [AMap.get?_insert, if_neg hne] at g3
      exact ⟨g1, g2, f', g3, g4⟩

theorem update_exists {env : TomlEnv} : ∀ {ts : List (String × Table)} {m : FlavorMap} {base : Flavor},
    (AMap.keys ts).Nodup → (∀ n t, (n, t) ∈ ts →
      n ≠ "" ∧ n ≠ "empty" ∧ ∃ f, applyTable env ((m.get? n).getD base) t = .ok f) →
    ∃ m', updateFlavors env m base ts = .ok m'
  | [], m, _, _, _ => ⟨m, rfl⟩
  | (name, u) :: rest, m, base, hk, h => by
    simp only [AMap.keys, List.map_cons, List.nodup_cons] at hk
    obtain ⟨h1, h2, f, h3⟩ := h name u (by simp)
    simp only [updateFlavors, if_neg h1, if_neg h2, h3]
    apply update_exists hk.2
    intro n t hm
    have hne : name ≠ n := by
      rintro rfl
      exact hk.1 (List.mem_map_of_mem (f := Prod.fst) hm)
    rw [AMap.get?_insert, if_neg hne]
    exact h n t (by simp [hm])

theorem tables_uniq_mem {l : List (String × Table)} (h : TablesUniq l) {n : String} {t : Table}
    (hm : (n, t) ∈ l) : t.Uniq := by
  induction l with
  | nil => simp at hm
  | cons x l ih =>
    obtain ⟨k, g⟩ := x
    rcases List.mem_cons.1 hm with hm | hm
    · simp only [Prod.mk.injEq] at hm; rw [hm.2]; exact h.1
    · exact ih h.2 hm

theorem Table.Uniq.subs_toml {t : Table} (h : t.Uniq) : UniqToml t.subs := by cases t; exact h.2
theorem Table.Uniq.fields_nodup {t : Table} (h : t.Uniq) : (AMap.keys t.fields.bindings).Nodup := by
  cases t; exact h.1

theorem applyTable_ok {env : TomlEnv} {f f' : Flavor} {t : Table} (h : applyTable env f t = .ok f') :
    applyFields env t.fields f.settings = .ok f'.settings ∧
    updateFlavors env f.subs (.mk f'.settings f.subs) t.subs = .ok f'.subs := by
  cases t with
  | mk fields subs =>
    simp only [applyTable] at h
    obtain ⟨s, h1, h⟩ := except_bind_ok h
    obtain ⟨subs', h2, h⟩ := except_bind_ok h
    obtain rfl := Except.ok.inj h
    exact ⟨h1, h2⟩

theorem tableAt_sub {toml : AMap Table} {n : String} {path : List String} {t : Table}
    (h : tableAt toml (n :: path) = some t) :
    ∃ u, AMap.get? toml n = some u ∧ ((path = [] ∧ t = u) ∨ (path ≠ [] ∧ tableAt u.subs path = some t)) := by
  simp only [tableAt, Option.bind_eq_some_iff] at h
  obtain ⟨u, h1, h2⟩ := h
  refine ⟨u, h1, ?_⟩
  cases path with
  | nil => simp only [Table.descend, Option.some.injEq] at h2; exact .inl ⟨rfl, h2.symm⟩
  | cons x path => exact .inr ⟨by simp, h2⟩

theorem tableAt_cons {toml : AMap Table} {n : String} {u : Table} (h : AMap.get? toml n = some u)
    {path : List String} (hp : path ≠ []) : tableAt toml (n :: path) = tableAt u.subs path := by
  cases path with
  | nil => exact absurd rfl hp
  | cons x path => simp [tableAt, h, Table.descend]

/-! ## Fields -/

theorem parseBindings_some {env : TomlEnv} : ∀ {b : List (String × String)} {l : List (String × Value)},
    parseBindings env b = some l → AMap.keys l = AMap.keys b ∧
      (∀ k, AMap.get? l k = (AMap.get? b k).bind env.parseExpr) ∧
      ∀ x ∈ b, (env.parseExpr x.2).isSome
  | [], l, h => by
    simp only [parseBindings, Option.some.injEq] at h; subst h; simp [AMap.keys, AMap.get?]
  | (k, v) :: b, l, h => by
    simp only [parseBindings, Option.bind_eq_bind, Option.bind_eq_some_iff] at h
    obtain ⟨v', h1, l', h2, h3⟩ := h
    simp only [pure, Option.some.injEq] at h3
    subst h3
    obtain ⟨g1, g2, g3⟩ := parseBindings_some h2
    refine ⟨by simp [AMap.keys] at g1 ⊢; exact g1, fun k' => ?_, ?_⟩
    · simp only [AMap.get?]
      split
      · simp [h1]
      · exact g2 k'
    · simp only [List.mem_cons, forall_eq_or_imp, h1, Option.isSome_some, true_and]
      exact g3

theorem parseBindings_of {env : TomlEnv} : ∀ {b : List (String × String)},
    (∀ x ∈ b, (env.parseExpr x.2).isSome) → ∃ l, parseBindings env b = some l
  | [], _ => ⟨[], rfl⟩
  | (k, v) :: b, h => by
    obtain ⟨l, hl⟩ := parseBindings_of (b := b) fun x hx => h x (by simp [hx])
    obtain ⟨v', hv⟩ := Option.isSome_iff_exists.1 (h (k, v) (by simp))
    exact ⟨_, by simp only [parseBindings, hv, hl]; rfl⟩

theorem fieldBindings_ok {env : TomlEnv} {b : AMap String} {cur new : AMap Value}
    (hb : (AMap.keys b).Nodup) (h : fieldBindings env b cur = .ok new) :
    ∀ k, match AMap.get? b k with
      | none => new.get? k = cur.get? k
      | some text => ∃ v, env.parseExpr text = some v ∧ new.get? k = some v := by
  simp only [fieldBindings] at h
  split at h
  · rename_i l hl
    obtain rfl := Except.ok.inj h
    obtain ⟨g1, g2, g3⟩ := parseBindings_some hl
    intro k
    have hk : (AMap.extend cur l).get? k = ((AMap.get? b k).bind env.parseExpr).or (cur.get? k) := by
      rw [AMap.get?_extend, AMap.lastVal_nodup l (by rw [g1]; exact hb), g2]
    cases hg : AMap.get? b k with
    | none => simp [hk, hg]
    | some text =>
      have hm := (AMap.mem_iff_get? b hb k text).2 hg
      obtain ⟨v, hv⟩ := Option.isSome_iff_exists.1 (g3 _ hm)
      exact ⟨v, hv, by simp [hk, hg, hv]⟩
  · simp at h

theorem mapM_some {α β : Type} {f : α → Option β} : ∀ {l : List α} {r : List β},
    l.mapM f = some r → l.map f = r.map some
  | [], r, h => by simp at h; subst h; rfl
  | x :: l, r, h => by
    rw [List.mapM_cons] at h
    simp only [Option.bind_eq_bind, Option.bind_eq_some_iff] at h
    obtain ⟨y, h1, l', h2, h3⟩ := h
    simp only [pure, Option.some.injEq] at h3
    subst h3
    simp [h1, mapM_some h2]

/-- Applying the fields of a table. -/
theorem applyFields_over {env : TomlEnv} {t : TableFields} {s s' : Settings}
    (hb : (AMap.keys t.bindings).Nodup) (h : applyFields env t s = .ok s') : FieldsOver env t s s' := by
  obtain ⟨h1, h2, h3, h4, h5, h6, h7, h8⟩ := applyFields_ok h
  constructor
  · simp only [fieldMethod] at h2
    cases hm : t.method with
    | none => simp [hm] at h2; exact h2.symm
    | some m =>
      simp only [hm] at h2
      split at h2
      · rename_i ts hts; exact ⟨ts, hts, (Except.ok.inj h2).symm⟩
      · simp at h2
  · simp only [fieldTargets] at h3
    cases hm : t.hookTargets with
    | none => simp [hm] at h3; exact h3.symm
    | some l =>
      simp only [hm] at h3
      split at h3
      · rename_i sw hsw
        obtain rfl := Except.ok.inj h3
        exact ⟨(C29_accepted l).1 ⟨_, hsw⟩, fun k => C29_union hsw k⟩
      · simp at h3
  · cases hm : t.tailIdents with
    | none => simp [h5, hm]
    | some l => simp [h5, hm, splitInclude_fst]
  · rw [h6]
    simp only [ignoreSetting]
    cases ht : t.tailIdents with
    | none =>
      cases hi : t.ignoreIdents with
      | none => simp [bangs]
      | some l => simp [bangs]
    | some tl =>
      cases hi : t.ignoreIdents with
      | none =>
        simp only [splitInclude_snd, Option.getD_some, true_and, Option.getD_none, List.append_nil,
          List.isEmpty_iff]
        by_cases hb : bangs tl = [] <;> simp [hb]
      | some l =>
        simp only [splitInclude_snd, Option.getD_some, reduceCtorEq, false_and, if_false,
          List.isEmpty_iff]
        by_cases hb : bangs tl = [] <;> simp [hb]
  · cases hm : t.resultTypes with
    | none => simp [h7, hm]
    | some l => simp [h7, hm]
  · cases hm : t.hookInMacros with
    | none => simp [h8, hm]
    | some l => simp [h8, hm]
  · exact fieldBindings_ok hb h4
  · simp only [fieldTraitUses] at h1
    split at h1
    · rename_i l hl
      rw [← Except.ok.inj h1]
      exact mapM_some hl
    · simp at h1

/-! ## C35 -/

theorem Origin.cons {m m' : FlavorMap} {base o f' : Flavor} {n : String}
    (h1 : Origin m m' base [n] o) (h2 : Reaches m' [n] f') {path : List String} {x : Flavor}
    (h : Origin o.subs f'.subs (.mk f'.settings o.subs) path x) : Origin m m' base (n :: path) x := by
  have hm : (n, f') ∈ m' := by
    cases h2 with
    | top hm => exact hm
    | sub _ hr => cases hr
  induction h with
  | old h => exact h1.oldSub h
  | new h => exact h1.newSub h h2
  | oldSub _ h ih => exact ih.oldSub h
  | newSub _ h hr ih => exact ih.newSub h (.sub hm hr)

theorem origin_of_reaches {m m' : FlavorMap} {base : Flavor} (hu : UniqMap m) {q : List String}
    {g : Flavor} (h : Reaches m q g) : Origin m m' base q g := by
  suffices hs : ∀ q (m0 : FlavorMap) (g : Flavor), UniqMap m0 → Reaches m0 q g →
      ∀ (p : List String) (f : Flavor), (p = [] ∧ m0 = m ∨ Origin m m' base p f ∧ f.subs = m0) →
      Origin m m' base (p ++ q) g from hs q m g hu h [] base (.inl ⟨rfl, rfl⟩)
  intro q
  induction q with
  | nil => intro m0 g _ h; cases h
  | cons n q ih =>
    intro m0 g hu h p f hp
    have step : ∀ f1, (n, f1) ∈ m0 → Origin m m' base (p ++ [n]) f1 := by
      intro f1 hf1
      rcases hp with ⟨rfl, rfl⟩ | ⟨hp, rfl⟩
      · exact .old ((hu.mem_iff _ _).1 hf1)
      · exact hp.oldSub ((hu.mem_iff _ _).1 hf1)
    cases h with
    | top hm => exact step g hm
    | @sub _ _ f1 _ _ hm hr =>
      have := ih f1.subs g (uniq_mem hu.2 hm).subs_map hr (p ++ [n]) f1 (.inr ⟨step f1 hm, rfl⟩)
      rwa [List.append_assoc] at this

theorem Reaches.uniq {m : FlavorMap} (hu : UniqMap m) {q : List String} {f : Flavor}
    (h : Reaches m q f) : f.Uniq := by
  induction h with
  | top hm => exact uniq_mem hu.2 hm
  | sub hm _ ih => exact ih (uniq_mem hu.2 hm).subs_map

theorem Reaches.unique {m : FlavorMap} (hu : UniqMap m) {q : List String} {f g : Flavor}
    (h : Reaches m q f) (h' : Reaches m q g) : f = g := by
  have h1 := (inner_iff hu q f).2 h
  have h2 := (inner_iff hu q g).2 h'
  rw [h1] at h2
  exact Option.some.inj h2

theorem Origin.ne {m m' : FlavorMap} {base f : Flavor} {q : List String}
    (h : Origin m m' base q f) : q ≠ [] := by cases h <;> simp

theorem Origin.unique {m m' : FlavorMap} {base : Flavor} (hu : UniqMap m') {q : List String}
    {f g : Flavor} (h : Origin m m' base q f) (h' : Origin m m' base q g) : f = g := by
  induction h generalizing g with
  | @old n f h =>
    generalize hq : [n] = q at h'
    cases h' with
    | old g' => simp only [List.cons.injEq, and_true] at hq; subst hq; rw [h] at g'; exact Option.some.inj g'
    | new g' => simp only [List.cons.injEq, and_true] at hq; subst hq; rw [h] at g'; cases g'
    | oldSub g' _ | newSub g' _ _ =>
      have hl := congrArg List.length hq
      have := List.length_pos_of_ne_nil g'.ne
      simp only [List.length_cons, List.length_append, List.length_nil] at hl
      omega
  | @new n h =>
    generalize hq : [n] = q at h'
    cases h' with
    | old g' => simp only [List.cons.injEq, and_true] at hq; subst hq; rw [h] at g'; cases g'
    | new g' => rfl
    | oldSub g' _ | newSub g' _ _ =>
      have hl := congrArg List.length hq
      have := List.length_pos_of_ne_nil g'.ne
      simp only [List.length_cons, List.length_append, List.length_nil] at hl
      omega
  | @oldSub p n f1 f h1 h2 ih =>
    generalize hq : p ++ [n] = q at h'
    cases h' with
    | old _ | new _ =>
      have hl := congrArg List.length hq
      have := List.length_pos_of_ne_nil h1.ne
      simp only [List.length_cons, List.length_append, List.length_nil] at hl
      omega
    | oldSub g1 g2 =>
      obtain ⟨rfl, hn⟩ := List.append_inj' hq rfl
      simp only [List.cons.injEq, and_true] at hn
      subst hn
      rw [ih g1, g2] at h2
      exact (Option.some.inj h2).symm
    | newSub g1 g2 _ =>
      obtain ⟨rfl, hn⟩ := List.append_inj' hq rfl
      simp only [List.cons.injEq, and_true] at hn
      subst hn
      rw [ih g1, g2] at h2
      cases h2
  | @newSub p n f1 f h1 h2 h3 ih =>
    generalize hq : p ++ [n] = q at h'
    cases h' with
    | old _ | new _ =>
      have hl := congrArg List.length hq
      have := List.length_pos_of_ne_nil h1.ne
      simp only [List.length_cons, List.length_append, List.length_nil] at hl
      omega
    | oldSub g1 g2 =>
      obtain ⟨rfl, hn⟩ := List.append_inj' hq rfl
      simp only [List.cons.injEq, and_true] at hn
      subst hn
      rw [ih g1, g2] at h2
      cases h2
    | newSub g1 g2 g3 =>
      obtain ⟨rfl, hn⟩ := List.append_inj' hq rfl
      simp only [List.cons.injEq, and_true] at hn
      subst hn
      rw [ih g1, h3.unique hu g3]

theorem update_origin {env : TomlEnv} {q : List String} : ∀ {m m' : FlavorMap} {base : Flavor}
    {toml : AMap Table} {t : Table}, UniqToml toml → UniqMap m → base.Uniq →
    updateFlavors env m base toml = .ok m' → tableAt toml q = some t →
    ∃ o f', Origin m m' base q o ∧ Reaches m' q f' ∧ applyFields env t.fields o.settings = .ok f'.settings := by
  induction q with
  | nil => intro m m' base toml t _ _ _ _ ht; simp [tableAt] at ht
  | cons n q ih =>
    intro m m' base toml t hu hm hb h ht
    obtain ⟨u, h1, h2⟩ := tableAt_sub ht
    have hmem := (AMap.mem_iff_get? toml hu.1 n u).2 h1
    obtain ⟨-, -, f', h3, h4⟩ := update_ok hu.1 h n u hmem
    have hm' := updateFlavors_uniq toml hm hb h
    have hr : Reaches m' [n] f' := .top ((hm'.mem_iff _ _).2 h4)
    obtain ⟨h5, h6⟩ := applyTable_ok h3
    have ho : Origin m m' base [n] ((m.get? n).getD base) := by
      cases hg : m.get? n with
      | none => exact .new hg
      | some g => exact .old hg
    rcases h2 with ⟨rfl, rfl⟩ | ⟨hq, h2⟩
    · exact ⟨_, f', ho, hr, h5⟩
    · have hou : ((m.get? n).getD base).Uniq := by
        cases hg : m.get? n with
        | none => exact hb
        | some g => exact uniq_mem hm.2 ((hm.mem_iff _ _).2 hg)
      obtain ⟨o, f2, g1, g2, g3⟩ := ih (tables_uniq_mem hu.2 hmem).subs_toml hou.subs_map
        (base := .mk f'.settings ((m.get? n).getD base).subs) (by exact hou.subs_map) h6 h2
      exact ⟨o, f2, ho.cons hr g1, .sub ((hm'.mem_iff _ _).2 h4) g2, g3⟩

/-- C35, every table at every depth: the resulting flavor is the one it starts from,
with the fields that the table mentions.  Missing from the full statement: the trait
uses are not kept when the table has none (`C35_trait_uses`). -/
theorem C35_fields_partial {env : TomlEnv} {dflt : Settings} {m m' : FlavorMap} {toml : AMap Table}
    (hu : UniqToml toml) (hm : UniqMap m) (h : applyToml env dflt m toml = .ok m')
    {q : List String} {t : Table} (ht : tableAt toml q = some t) :
    ∃ o f', Origin m m' (.mk dflt []) q o ∧ Reaches m' q f' ∧
      FieldsOver env t.fields o.settings f'.settings := by
  have hb : (Flavor.mk dflt []).Uniq := ⟨by simp [AMap.keys], trivial⟩
  obtain ⟨o, f', h1, h2, h3⟩ := update_origin hu hm hb h ht
  refine ⟨o, f', h1, h2, applyFields_over ?_ h3⟩
  clear h1 h2 h3 h
  induction q generalizing toml with
  | nil => simp [tableAt] at ht
  | cons n q ih =>
    obtain ⟨u, g1, g2⟩ := tableAt_sub ht
    have hmem := (AMap.mem_iff_get? toml hu.1 n u).2 g1
    have huu := tables_uniq_mem hu.2 hmem
    rcases g2 with ⟨rfl, rfl⟩ | ⟨hq, g2⟩
    · exact huu.fields_nodup
    · exact ih huu.subs_toml g2

/-- C35, the three cases of the statement: a table for an existing flavor keeps the
fields of that flavor; a new top-level flavor starts from the default; a new sub-flavor
of an existing flavor starts from the parent as updated by the file. -/
theorem C35_cases_partial {env : TomlEnv} {dflt : Settings} {m m' : FlavorMap} {toml : AMap Table}
    (hu : UniqToml toml) (hm : UniqMap m) (h : applyToml env dflt m toml = .ok m')
    {q : List String} {t : Table} (ht : tableAt toml q = some t) :
    ∃ f', Reaches m' q f' ∧
      (∀ g, Reaches m q g → FieldsOver env t.fields g.settings f'.settings) ∧
      (∀ n, q = [n] → (∀ g, ¬ Reaches m [n] g) → FieldsOver env t.fields dflt f'.settings) ∧
      (∀ p n g, q = p ++ [n] → Reaches m p g → (∀ g, ¬ Reaches m q g) →
        ∀ g', Reaches m' p g' → FieldsOver env t.fields g'.settings f'.settings) := by
  have hb : (Flavor.mk dflt []).Uniq := ⟨by simp [AMap.keys], trivial⟩
  have hm' := updateFlavors_uniq toml hm hb h
  obtain ⟨o, f', h1, h2, h3⟩ := C35_fields_partial hu hm h ht
  refine ⟨f', h2, fun g hg => ?_, fun n hq hn => ?_, fun p n g hq hg hn g' hg' => ?_⟩
  · rwa [h1.unique hm' (origin_of_reaches hm hg)] at h3
  · subst hq
    have : m.get? n = none := by
      cases hg : m.get? n with
      | none => rfl
      | some g => exact absurd (Reaches.top ((hm.mem_iff _ _).2 hg)) (hn g)
    rwa [h1.unique hm' (.new this)] at h3
  · subst hq
    have hnone : g.subs.get? n = none := by
      cases hx : g.subs.get? n with
      | none => rfl
      | some x =>
        exfalso
        apply hn x
        have : ∀ (m : FlavorMap) (p : List String) (g : Flavor), Reaches m p g → (n, x) ∈ g.subs →
            Reaches m (p ++ [n]) x := by
          intro m p g hr hx
          induction hr with
          | top hm => exact .sub hm (.top hx)
          | sub hm _ ih => exact .sub hm (ih hx)
        apply this m p g hg
        exact ((hg.uniq hm).subs_map.mem_iff _ _).2 hx
    rwa [h1.unique hm' ((origin_of_reaches hm hg).newSub hnone hg')] at h3

/-- C35, negation witness: a table that says nothing about trait uses removes those of
the flavor. -/
theorem C35_trait_uses {env : TomlEnv} {dflt : Settings} {m m' : FlavorMap} {toml : AMap Table}
    (hu : UniqToml toml) (hm : UniqMap m) (h : applyToml env dflt m toml = .ok m')
    {q : List String} {t : Table} (ht : tableAt toml q = some t) (hn : t.fields.traitUses = []) :
    ∃ f', Reaches m' q f' ∧ f'.settings.traitUses = [] := by
  obtain ⟨o, f', -, h2, h3⟩ := C35_fields_partial hu hm h ht
  refine ⟨f', h2, ?_⟩
  have := h3.traitUses
  rw [hn] at this
  simpa using this.symm

/-! ## C37 -/

/-- C37.  A file with a table called `empty`, at any depth, is rejected. -/
theorem C37_rejected {env : TomlEnv} {dflt : Settings} {m : FlavorMap} {toml : AMap Table}
    (hu : UniqToml toml) (hm : UniqMap m) {q : List String} {t : Table}
    (ht : tableAt toml q = some t) (hq : "empty" ∈ q) : ∃ e, applyToml env dflt m toml = .error e := by
  cases h : applyToml env dflt m toml with
  | error e => exact ⟨e, rfl⟩
  | ok m' =>
    exfalso
    simp only [applyToml] at h
    have hb : (Flavor.mk dflt []).Uniq := ⟨by simp [AMap.keys], trivial⟩
    generalize Flavor.mk dflt [] = base at h hb
    induction q generalizing toml m m' base with
    | nil => simp at hq
    | cons n q ih =>
      obtain ⟨u, g1, g2⟩ := tableAt_sub ht
      have hmem := (AMap.mem_iff_get? toml hu.1 n u).2 g1
      obtain ⟨-, h2, f', h3, h4⟩ := update_ok hu.1 h n u hmem
      have hq' : "empty" ∈ q := by
        rcases List.mem_cons.1 hq with h | h
        · exact absurd h.symm h2
        · exact h
      rcases g2 with ⟨rfl, -⟩ | ⟨-, g2⟩
      · simp at hq'
      · have hou : ((m.get? n).getD base).Uniq := by
          cases hg : m.get? n with
          | none => exact hb
          | some g => exact uniq_mem hm.2 ((hm.mem_iff _ _).2 hg)
        exact ih (tables_uniq_mem hu.2 hmem).subs_toml hou.subs_map g2 hq' _ _ (applyTable_ok h3).2
          hou.subs_map

/-- C37.  After any accepted file the flavor `empty` is the preset. -/
theorem C37_preset {env : TomlEnv} {dflt : Settings} {consume : Bool} {helpers : List TT}
    {ft : PresetFeatures} {m' : FlavorMap} {toml : AMap Table} (hu : UniqToml toml)
    (h : applyToml env dflt (presetFlavors consume helpers ft) toml = .ok m') :
    getFlavor m' ["empty"] = .ok (.mk (emptySettings consume) []) := by
  have hn : "empty" ∉ AMap.keys toml := by
    intro hk
    obtain ⟨⟨n, t⟩, h1, rfl⟩ := List.mem_map.1 hk
    have ht : tableAt toml ["empty"] = some t := by
      simp [tableAt, (AMap.mem_iff_get? toml hu.1 _ _).1 h1, Table.descend]
    obtain ⟨e, he⟩ := C37_rejected (env := env) (dflt := dflt) hu (uniq_presets consume helpers ft) ht
      (by simp)
    rw [h] at he; cases he
  have := update_names h "empty" hn
  have e : (presetFlavors consume helpers ft).get? "empty" = some (.mk (emptySettings consume) []) := rfl
  rw [e] at this
  simp [getFlavor, getFlavorInner, this, Flavor.descend]

/-! ## C38 -/

theorem update_unmentioned {env : TomlEnv} {q : List String} : ∀ {m m' : FlavorMap} {base : Flavor}
    {toml : AMap Table} {g : Flavor}, UniqToml toml → UniqMap m → base.Uniq →
    updateFlavors env m base toml = .ok m' → Reaches m q g → tableAt toml q = none →
    ∃ g', Reaches m' q g' ∧ g'.settings = g.settings ∧ g'.subs = g.subs := by
  induction q with
  | nil => intro _ _ _ _ _ _ _ _ _ hr; cases hr
  | cons n q ih =>
    intro m m' base toml g hu hm hb h hr ht
    have hm' := updateFlavors_uniq toml hm hb h
    have hkey : ∀ f, (n, f) ∈ m → AMap.get? toml n = none → (n, f) ∈ m' := by
      intro f hf hg
      rw [hm'.mem_iff, update_names h n, ← hm.mem_iff]
      · exact hf
      · intro hk
        obtain ⟨⟨n', t⟩, h1, rfl⟩ := List.mem_map.1 hk
        rw [(AMap.mem_iff_get? toml hu.1 _ _).1 h1] at hg
        cases hg
    cases hg : AMap.get? toml n with
    | none =>
      cases hr with
      | top hmem => exact ⟨g, .top (hkey g hmem hg), rfl, rfl⟩
      | sub hmem hr => exact ⟨g, .sub (hkey _ hmem hg) hr, rfl, rfl⟩
    | some u =>
      have hmem := (AMap.mem_iff_get? toml hu.1 n u).2 hg
      obtain ⟨-, -, f', h3, h4⟩ := update_ok hu.1 h n u hmem
      cases hr with
      | top hf =>
        simp [tableAt, hg, Table.descend] at ht
      | @sub _ _ f _ _ hf hr =>
        rw [(hm.mem_iff _ _).1 hf] at h3
        simp only [Option.getD_some] at h3
        have hq : q ≠ [] := by rintro rfl; cases hr
        rw [tableAt_cons hg hq] at ht
        have hfu := uniq_mem hm.2 hf
        obtain ⟨g', k1, k2, k3⟩ := ih (tables_uniq_mem hu.2 hmem).subs_toml hfu.subs_map
          (base := .mk f'.settings f.subs) (by exact hfu.subs_map) (applyTable_ok h3).2 hr ht
        exact ⟨g', .sub ((hm'.mem_iff _ _).2 h4) k1, k2, k3⟩

/-- C38.  A flavor for which the file has no table resolves to exactly what it was,
sub-flavors included, even when the file has tables for the flavors above it. -/
theorem C38_unmentioned {env : TomlEnv} {dflt : Settings} {m m' : FlavorMap} {toml : AMap Table}
    (hu : UniqToml toml) (hm : UniqMap m) (h : applyToml env dflt m toml = .ok m')
    {q : List String} {g : Flavor} (hg : Reaches m q g) (ht : tableAt toml q = none) :
    getFlavor m' q = .ok g := by
  have hb : (Flavor.mk dflt []).Uniq := ⟨by simp [AMap.keys], trivial⟩
  obtain ⟨g', h1, h2, h3⟩ := update_unmentioned hu hm hb h hg ht
  rw [(C34_lookup (updateFlavors_uniq toml hm hb h) q).1]
  have : g' = g := by cases g; cases g'; simp only [Flavor.settings, Flavor.subs] at h2 h3; rw [h2, h3]
  rwa [this] at h1

/-! ## C36 -/

/-- Flavors that agree at every path below them. -/
def SameFlavor (f g : Flavor) : Prop :=
  ∀ path, Option.Rel (fun f g => SameSettings f.settings g.settings) (f.descend path) (g.descend path)

theorem rel_none {α β : Type} {R : α → β → Prop} {b : Option β} : Option.Rel R none b ↔ b = none := by
  constructor
  · intro h; cases h; rfl
  · rintro rfl; exact .none

theorem rel_some {α β : Type} {R : α → β → Prop} {a : α} {b : Option β} :
    Option.Rel R (some a) b ↔ ∃ b', b = some b' ∧ R a b' := by
  constructor
  · intro h; cases h with | some h => exact ⟨_, rfl, h⟩
  · rintro ⟨b', rfl, h⟩; exact .some h

theorem sameFlavor_iff {f g : Flavor} : SameFlavor f g ↔
    SameSettings f.settings g.settings ∧ ∀ n, Option.Rel SameFlavor (f.subs.get? n) (g.subs.get? n) := by
  constructor
  · intro h
    refine ⟨?_, fun n => ?_⟩
    · have := h []
      simp only [Flavor.descend, rel_some, Option.some.injEq] at this
      obtain ⟨_, rfl, h⟩ := this
      exact h
    · cases hf : f.subs.get? n with
      | none =>
        have := h [n]
        simp only [Flavor.descend, hf, Option.bind_none, rel_none] at this
        cases hg : g.subs.get? n with
        | none => exact .none
        | some y => simp [hg] at this
      | some x =>
        have := h [n]
        simp only [Flavor.descend, hf, Option.bind_some, rel_some] at this
        obtain ⟨b', h1, -⟩ := this
        cases hg : g.subs.get? n with
        | none => simp [hg] at h1
        | some y =>
          refine .some fun path => ?_
          have := h (n :: path)
          simpa [Flavor.descend, hf, hg] using this
  · rintro ⟨h1, h2⟩ path
    cases path with
    | nil => exact .some h1
    | cons n path =>
      have := h2 n
      simp only [Flavor.descend]
      cases hf : f.subs.get? n with
      | none => rw [hf, rel_none] at this; rw [this]; exact .none
      | some x =>
        rw [hf, rel_some] at this
        obtain ⟨y, h3, h4⟩ := this
        rw [h3]
        exact h4 path

theorem sameStore_iff {m m' : FlavorMap} :
    SameStore m m' ↔ ∀ n, Option.Rel SameFlavor (m.get? n) (m'.get? n) := by
  have := @sameFlavor_iff (.mk default m) (.mk default m')
  constructor
  · intro h n
    cases hf : m.get? n with
    | none =>
      have := h [n]
      simp only [getFlavorInner, hf, Option.bind_none, rel_none] at this
      cases hg : m'.get? n with
      | none => exact .none
      | some y => simp [hg, Flavor.descend] at this
    | some x =>
      have := h [n]
      simp only [getFlavorInner, hf, Option.bind_some, Flavor.descend, rel_some] at this
      obtain ⟨b', h1, -⟩ := this
      cases hg : m'.get? n with
      | none => simp [hg] at h1
      | some y =>
        refine .some fun path => ?_
        have := h (n :: path)
        simpa [getFlavorInner, hf, hg] using this
  · intro h path
    cases path with
    | nil => exact .none
    | cons n path =>
      have := h n
      simp only [getFlavorInner]
      cases hf : m.get? n with
      | none => rw [hf, rel_none] at this; rw [this]; exact .none
      | some x =>
        rw [hf, rel_some] at this
        obtain ⟨y, h3, h4⟩ := this
        rw [h3]
        exact h4 path

theorem sameToml_sub {toml toml' : AMap Table} (h : SameToml toml toml') {n : String} {t : Table}
    (ht : AMap.get? toml n = some t) : ∃ u, AMap.get? toml' n = some u ∧
      SameFields t.fields u.fields ∧ SameToml t.subs u.subs := by
  have := h [n]
  simp only [tableAt, ht, Option.bind_some, Table.descend, rel_some] at this
  obtain ⟨b', h1, h2⟩ := this
  cases hg : AMap.get? toml' n with
  | none => simp [hg] at h1
  | some u =>
    simp only [hg, Option.bind_some, Option.some.injEq] at h1
    subst h1
    refine ⟨_, rfl, h2, fun path => ?_⟩
    cases path with
    | nil => exact .none
    | cons x path =>
      have := h (n :: x :: path)
      rwa [tableAt_cons ht (by simp), tableAt_cons hg (by simp)] at this

theorem sameToml_none {toml toml' : AMap Table} (h : SameToml toml toml') {n : String}
    (ht : AMap.get? toml n = none) : AMap.get? toml' n = none := by
  have := h [n]
  simp only [tableAt, ht, Option.bind_none, rel_none] at this
  cases hg : AMap.get? toml' n with
  | none => rfl
  | some u => simp [hg, Table.descend] at this

theorem SameToml.symm {toml toml' : AMap Table} (h : SameToml toml toml') : SameToml toml' toml := by
  intro path
  have := h path
  cases h1 : tableAt toml path with
  | none => rw [h1, rel_none] at this; rw [this]; exact .none
  | some t =>
    rw [h1, rel_some] at this
    obtain ⟨u, h2, h3⟩ := this
    rw [h2]
    exact .some ⟨h3.traitUses.symm, h3.method.symm, h3.hookTargets.symm, h3.tailIdents.symm,
      h3.ignoreIdents.symm, h3.resultTypes.symm, h3.hookInMacros.symm, fun k => (h3.bindings k).symm⟩

theorem SameFlavor.refl (f : Flavor) : SameFlavor f f := by
  intro path
  cases f.descend path with
  | none => exact .none
  | some g => exact .some ⟨rfl, rfl, rfl, rfl, rfl, rfl, rfl, fun _ => rfl⟩

/-- Applying the same fields to the same settings. -/
theorem applyFields_same {env : TomlEnv} {t t' : TableFields} {s s' r : Settings}
    (ht : SameFields t t') (hs : SameSettings s s') (hb : (AMap.keys t.bindings).Nodup)
    (hb' : (AMap.keys t'.bindings).Nodup) (h : applyFields env t s = .ok r) :
    ∃ r', applyFields env t' s' = .ok r' ∧ SameSettings r r' := by
  obtain ⟨h1, h2, h3, h4, h5, h6, h7, h8⟩ := applyFields_ok h
  have hpb : ∃ b', fieldBindings env t'.bindings s'.bindings = .ok b' ∧
      ∀ k, r.bindings.get? k = AMap.get? b' k := by
    simp only [fieldBindings] at h4 ⊢
    split at h4
    · rename_i l hl
      obtain ⟨g1, g2, g3⟩ := parseBindings_some hl
      have : ∀ x ∈ t'.bindings, (env.parseExpr x.2).isSome := by
        rintro ⟨k, v⟩ hx
        have := (AMap.mem_iff_get? t'.bindings hb' k v).1 hx
        rw [← ht.bindings] at this
        exact g3 _ ((AMap.mem_iff_get? t.bindings hb k v).2 this)
      obtain ⟨l', hl'⟩ := parseBindings_of this
      obtain ⟨g1', g2', g3'⟩ := parseBindings_some hl'
      rw [hl']
      refine ⟨_, rfl, fun k => ?_⟩
      rw [← Except.ok.inj h4, AMap.get?_extend, AMap.get?_extend, AMap.lastVal_nodup l (by rw [g1]; exact hb),
        AMap.lastVal_nodup l' (by rw [g1']; exact hb'), g2, g2', ht.bindings, hs.bindings]
    · simp at h4
  obtain ⟨b', hb1, hb2⟩ := hpb
  rw [ht.traitUses] at h1
  rw [ht.method, hs.method] at h2
  rw [ht.hookTargets, hs.targets] at h3
  refine ⟨{ traitUses := r.traitUses, method := r.method, targets := r.targets,
            tailIdents := match t'.tailIdents with
              | some l => (splitInclude l).1
              | none => s'.tailIdents
            ignoreIdents := match ignoreSetting t'.tailIdents t'.ignoreIdents with
              | some l => l
              | none => s'.ignoreIdents
            resultTypes := t'.resultTypes.getD s'.resultTypes
            hookInMacros := t'.hookInMacros.getD s'.hookInMacros
            bindings := b' }, by simp only [applyFields, h1, h2, h3, hb1, bind, Except.bind]; rfl, ?_⟩
  constructor
  · rfl
  · rfl
  · rfl
  · simp only [h5, ht.tailIdents, hs.tailIdents]; rfl
  · simp only [h6, ht.tailIdents, ht.ignoreIdents, hs.ignoreIdents]; rfl
  · simp only [h7, ht.resultTypes, hs.resultTypes]
  · simp only [h8, ht.hookInMacros, hs.hookInMacros]
  · exact hb2

mutual
theorem applyTable_same {env : TomlEnv} : ∀ (t : Table) {u : Table} {f g f' : Flavor},
    SameFields t.fields u.fields → SameToml t.subs u.subs → t.Uniq → u.Uniq →
    SameFlavor f g → applyTable env f t = .ok f' →
    ∃ g', applyTable env g u = .ok g' ∧ SameFlavor f' g'
  | .mk tf ts, .mk uf us, f, g, f', h1, h2, ht, hu, hf, h => by
    obtain ⟨g1, g2⟩ := applyTable_ok h
    obtain ⟨k1, k2⟩ := sameFlavor_iff.1 hf
    obtain ⟨r', l1, l2⟩ := applyFields_same h1 k1 ht.1 hu.1 g1
    have hbase : SameFlavor (.mk f'.settings f.subs) (.mk r' g.subs) := sameFlavor_iff.2 ⟨l2, k2⟩
    obtain ⟨m'', n1, n2⟩ := updateFlavors_same ts (ts' := us) h2 ht.2 hu.2 k2 hbase g2
    have l1' : applyFields env uf g.settings = .ok r' := l1
    refine ⟨.mk r' m'', by simp only [applyTable, l1', n1, bind, Except.bind], ?_⟩
    exact sameFlavor_iff.2 ⟨l2, n2⟩
theorem updateFlavors_same {env : TomlEnv} : ∀ (ts : List (String × Table)) {ts' : List (String × Table)}
    {m m0 m' : FlavorMap} {base base' : Flavor}, SameToml ts ts' → UniqToml ts → UniqToml ts' →
    (∀ n, Option.Rel SameFlavor (m.get? n) (m0.get? n)) → SameFlavor base base' →
    updateFlavors env m base ts = .ok m' →
    ∃ m'', updateFlavors env m0 base' ts' = .ok m'' ∧
      ∀ n, Option.Rel SameFlavor (m'.get? n) (AMap.get? m'' n)
  | ts, ts', m, m0, m', base, base', hs, hu, hu', hm, hb, h => by
    have hrec := updateTables_same (env := env) ts
    have hent : ∀ n, SameFlavor ((m.get? n).getD base) ((m0.get? n).getD base') := by
      intro n
      have := hm n
      cases hg : m.get? n with
      | none => rw [hg, rel_none] at this; rw [this]; exact hb
      | some x =>
        rw [hg, rel_some] at this
        obtain ⟨y, h1, h2⟩ := this
        rw [h1]; exact h2
    have step : ∀ n u, (n, u) ∈ ts' → n ≠ "" ∧ n ≠ "empty" ∧
        ∃ t f f', AMap.get? ts n = some t ∧ m'.get? n = some f ∧
          applyTable env ((m0.get? n).getD base') u = .ok f' ∧ SameFlavor f f' := by
      intro n u hmem
      have hg := (AMap.mem_iff_get? ts' hu'.1 n u).1 hmem
      obtain ⟨t, k1, k2, k3⟩ := sameToml_sub hs.symm hg
      have hmem' := (AMap.mem_iff_get? ts hu.1 n t).2 k1
      obtain ⟨l1, l2, f, l3, l4⟩ := update_ok hu.1 h n t hmem'
      have k2' : SameFields t.fields u.fields := ⟨k2.traitUses.symm, k2.method.symm, k2.hookTargets.symm,
        k2.tailIdents.symm, k2.ignoreIdents.symm, k2.resultTypes.symm, k2.hookInMacros.symm,
        fun k => (k2.bindings k).symm⟩
      obtain ⟨f', r1, r2⟩ := hrec n t hmem' k2' k3.symm (tables_uniq_mem hu.2 hmem')
        (tables_uniq_mem hu'.2 hmem) (hent n) l3
      exact ⟨l1, l2, t, f, f', k1, l4, r1, r2⟩
    obtain ⟨m'', hm''⟩ := update_exists (env := env) (m := m0) (base := base') hu'.1 fun n u hmem => by
      obtain ⟨a, b, t, f, f', _, _, c, _⟩ := step n u hmem
      exact ⟨a, b, f', c⟩
    refine ⟨m'', hm'', fun n => ?_⟩
    by_cases hk : n ∈ AMap.keys ts'
    · obtain ⟨⟨n', u⟩, hmem, rfl⟩ := List.mem_map.1 hk
      obtain ⟨-, -, t, f, f', -, c1, c2, c3⟩ := step n' u hmem
      obtain ⟨-, -, f2, d1, d2⟩ := update_ok hu'.1 hm'' n' u hmem
      rw [c2] at d1
      obtain rfl := Except.ok.inj d1
      show Option.Rel SameFlavor (m'.get? n') (AMap.get? m'' n')
      rw [c1, d2]
      exact .some c3
    · have hk' : n ∉ AMap.keys ts := by
        intro hk'
        obtain ⟨⟨n', t⟩, hmem, rfl⟩ := List.mem_map.1 hk'
        obtain ⟨u, h1, -, -⟩ := sameToml_sub hs ((AMap.mem_iff_get? ts hu.1 _ t).1 hmem)
        exact hk (List.mem_map.2 ⟨_, (AMap.mem_iff_get? ts' hu'.1 _ u).2 h1, rfl⟩)
      rw [update_names h n hk', update_names hm'' n hk]
      exact hm n
theorem updateTables_same {env : TomlEnv} : ∀ (ts : List (String × Table)) (n : String) (t : Table),
    (n, t) ∈ ts → ∀ {u : Table} {f g f' : Flavor},
    SameFields t.fields u.fields → SameToml t.subs u.subs → t.Uniq → u.Uniq →
    SameFlavor f g → applyTable env f t = .ok f' →
    ∃ g', applyTable env g u = .ok g' ∧ SameFlavor f' g'
  | [], n, t, hm => by simp at hm
  | (k, v) :: rest, n, t, hm => by
    have h1 := @applyTable_same env v
    have h2 := updateTables_same (env := env) rest n t
    rcases List.mem_cons.1 hm with hm | hm
    · simp only [Prod.mk.injEq] at hm; obtain ⟨rfl, rfl⟩ := hm; exact h1
    · exact h2 hm
end

/-- C36.  Two files that differ only in the order in which their tables, sub-tables and
bindings are iterated are both rejected, or both give the same flavors: the same paths
exist and have the same settings. -/
theorem C36_order {env : TomlEnv} {dflt : Settings} {m : FlavorMap} {toml toml' : AMap Table}
    (hs : SameToml toml toml') (hu : UniqToml toml) (hu' : UniqToml toml') :
    ((∃ e, applyToml env dflt m toml = .error e) ∧ ∃ e, applyToml env dflt m toml' = .error e) ∨
    ∃ r r', applyToml env dflt m toml = .ok r ∧ applyToml env dflt m toml' = .ok r' ∧ SameStore r r' := by
  have hm : ∀ n, Option.Rel SameFlavor (m.get? n) (m.get? n) := by
    intro n; cases m.get? n with
    | none => exact .none
    | some f => exact .some (.refl f)
  cases h : applyToml env dflt m toml with
  | ok r =>
    obtain ⟨r', h1, h2⟩ := updateFlavors_same toml hs hu hu' hm (.refl _) h
    exact .inr ⟨r, r', rfl, h1, sameStore_iff.2 h2⟩
  | error e =>
    cases h' : applyToml env dflt m toml' with
    | error e' => exact .inl ⟨⟨e, rfl⟩, e', rfl⟩
    | ok r =>
      obtain ⟨r', h1, -⟩ := updateFlavors_same toml' hs.symm hu' hu hm (.refl _) h'
      simp only [applyToml] at h
      rw [h1] at h; cases h

/-! ## Examples -/

section

/-- An environment in which every text parses. -/
def Ex.tenv : TomlEnv where
  consume := false
  parsePath := fun s => some (.ofIdents [s])
  lex := fun s => some [tkId s]
  parseExpr := fun s => some ⟨.other, s⟩

/-- `[anyhow] hook_in_macros = false`, `[log] bindings = {..}`, `[log.fatal]`. -/
def Ex.toml : AMap Table :=
  [("anyhow", .mk { hookInMacros := some false } []),
   ("log", .mk { bindings := [("a", "1"), ("b", "2")] } [("fatal", .mk { method := some "m" } [])])]

/-- The same file in another order. -/
def Ex.toml' : AMap Table :=
  [("log", .mk { bindings := [("b", "2"), ("a", "1")] } [("fatal", .mk { method := some "m" } [])]),
   ("anyhow", .mk { hookInMacros := some false } [])]

theorem Ex.toml_uniq : UniqToml Ex.toml ∧ UniqToml Ex.toml' := by
  simp [UniqToml, Ex.toml, Ex.toml', AMap.keys, TablesUniq, Table.Uniq]

/-- The file is accepted; `anyhow` loses its trait uses. -/
example : ∃ m' f, applyToml Ex.tenv (defaultSettings false [])
      (presetFlavors false [] ⟨true, true, false, false⟩) Ex.toml = .ok m' ∧
    tableAt Ex.toml ["anyhow"] = some (.mk { hookInMacros := some false } []) ∧
    getFlavor m' ["anyhow"] = .ok f ∧ f.settings.traitUses = [] ∧ f.settings.hookInMacros = false ∧
    f.settings.resultTypes = ["Result"] :=
  ⟨_, _, rfl, rfl, rfl, rfl, rfl, rfl⟩

/-- A new sub-flavor takes the bindings of its updated parent. -/
example : ∃ m' f, applyToml Ex.tenv (defaultSettings false [])
      (presetFlavors false [] ⟨true, true, false, false⟩) Ex.toml = .ok m' ∧
    getFlavor m' ["log", "fatal"] = .ok f ∧ f.settings.bindings.keys = ["level", "a", "b"] :=
  ⟨_, _, rfl, rfl, rfl⟩

/-- The hypothesis of `C36_order`. -/
example : SameToml Ex.toml Ex.toml' := by
  intro path
  cases path with
  | nil => exact .none
  | cons n path =>
    simp only [tableAt, Ex.toml, Ex.toml', AMap.get?]
    by_cases h1 : n = "anyhow"
    · subst h1
      rw [if_pos rfl, if_neg (by decide), if_pos rfl]
      simp only [Option.bind_some]
      cases (Table.mk { hookInMacros := some false } []).descend path with
      | none => exact .none
      | some t => exact .some ⟨rfl, rfl, rfl, rfl, rfl, rfl, rfl, fun _ => rfl⟩
    · rw [if_neg (Ne.symm h1), if_neg (Ne.symm h1)]
      by_cases h2 : n = "log"
      · subst h2
        rw [if_pos rfl, if_pos rfl]
        cases path with
        | nil =>
          refine .some ⟨rfl, rfl, rfl, rfl, rfl, rfl, rfl, fun k => ?_⟩
          simp only [Table.fields, AMap.get?]
          by_cases ha : "a" = k
          · subst ha; rfl
          · rw [if_neg ha, if_neg ha]
        | cons x path =>
          show Option.Rel _ ((AMap.get? [("fatal", Table.mk { method := some "m" } [])] x).bind _)
            ((AMap.get? [("fatal", Table.mk { method := some "m" } [])] x).bind _)
          cases (AMap.get? [("fatal", Table.mk { method := some "m" } [])] x).bind
              fun u => u.descend path with
          | none => exact .none
          | some t => exact .some ⟨rfl, rfl, rfl, rfl, rfl, rfl, rfl, fun _ => rfl⟩
      · rw [if_neg (Ne.symm h2), if_neg (Ne.symm h2)]
        exact .none

/-- `log::warn` is not mentioned although `log` is. -/
example : tableAt Ex.toml ["log", "warn"] = none ∧
    ∃ g, Reaches (presetFlavors false [] ⟨true, true, false, false⟩) ["log", "warn"] g :=
  ⟨rfl, _, (inner_iff (uniq_presets _ _ _) _ _).1 rfl⟩

/-- A nested table `empty`. -/
example : tableAt [("log", .mk {} [("empty", .mk {} [])])] ["log", "empty"] = some (.mk {} []) := rfl

end

end Hooq
