import Verif.Spec.TomlDoc
import Verif.Props.Toml

/-!
# C59: which documents are accepted as `hooq.toml`
-/

namespace Hooq

theorem settingType_none {k : String} : settingType k = none ↔ k ∉ fieldNames := by
  unfold settingType
  split <;> simp_all [fieldNames]

theorem asStr_iff {v : TomlVal} {s : String} : v.asStr = some s ↔ v = .str s := by
  cases v <;> simp [TomlVal.asStr]

theorem asBool_iff {v : TomlVal} {b : Bool} : v.asBool = some b ↔ v = .bool b := by
  cases v <;> simp [TomlVal.asBool]

theorem mapM_asStr {l : List TomlVal} {x : List String} : l.mapM TomlVal.asStr = some x ↔ l = x.map .str := by
  induction l generalizing x with
  | nil => cases x <;> simp
  | cons v l ih =>
    cases x with
    | nil => cases h : v.asStr <;> cases h' : l.mapM TomlVal.asStr <;> simp [List.mapM_cons, h, h']
    | cons s x =>
      simp only [List.mapM_cons, Option.bind_eq_bind, Option.bind_eq_some_iff, Option.pure_def,
        Option.some.injEq, List.cons.injEq, List.map_cons, ← ih (x := x), ← asStr_iff]
      constructor
      · rintro ⟨a, h1, b, h2, rfl, rfl⟩; exact ⟨h1, h2⟩
      · rintro ⟨h1, h2⟩; exact ⟨_, h1, _, h2, rfl, rfl⟩

theorem asStrs_iff {v : TomlVal} {x : List String} : v.asStrs = some x ↔ v = .arr (x.map .str) := by
  cases v <;> simp [TomlVal.asStrs, mapM_asStr]

theorem mapM_bindings {l : List (String × TomlVal)} {x : List (String × String)} :
    (l.mapM fun kv => kv.2.asStr.map fun s => (kv.1, s)) = some x ↔
      l = x.map fun kv => (kv.1, TomlVal.str kv.2) := by
  induction l generalizing x with
  | nil => cases x <;> simp
  | cons kv l ih =>
    simp only [List.mapM_cons, Option.bind_eq_bind, Option.bind_eq_some_iff, Option.pure_def,
        Option.some.injEq, Option.map_eq_some_iff, asStr_iff, ih]
    obtain ⟨k, v⟩ := kv
    constructor
    · rintro ⟨_, ⟨s, rfl, rfl⟩, y, rfl, rfl⟩; rfl
    · intro h
      cases x with
      | nil => simp at h
      | cons p x =>
        simp only [List.map_cons, List.cons.injEq, Prod.mk.injEq] at h
        obtain ⟨⟨rfl, rfl⟩, rfl⟩ := h
        exact ⟨_, ⟨_, rfl, rfl⟩, _, rfl, rfl⟩

theorem asBindings_iff {v : TomlVal} {x : AMap String} :
    v.asBindings = some x ↔ v = .table (x.map fun kv => (kv.1, .str kv.2)) := by
  cases v <;> simp [TomlVal.asBindings, mapM_bindings]

theorem optField_some {α : Type} {read : TomlVal → Option α} {l : Entries} {k : String} {o : Option α} :
    optField read l k = some o ↔ (AMap.get? l k = none ∧ o = none) ∨
      ∃ v a, AMap.get? l k = some v ∧ read v = some a ∧ o = some a := by
  unfold optField
  cases AMap.get? l k with
  | none => simp [eq_comm]
  | some v => cases h : read v <;> simp [h, eq_comm]

theorem optField_map {α : Type} {read : TomlVal → Option α} {l : Entries} {k : String} {o : Option α}
    {put : α → TomlVal} (hr : ∀ v a, read v = some a ↔ v = put a) :
    optField read l k = some o ↔ AMap.get? l k = o.map put := by
  rw [optField_some]
  cases o with
  | none => simp
  | some a =>
    simp only [reduceCtorEq, and_false, Option.some.injEq, false_or, Option.map_some]
    constructor
    · rintro ⟨v, a', h1, h2, rfl⟩; rw [h1, (hr _ _).1 h2]
    · intro h; exact ⟨_, _, h, (hr _ _).2 rfl, rfl⟩

theorem optField_exists {α : Type} {read : TomlVal → Option α} {l : Entries} {k : String}
    {put : α → TomlVal} (hr : ∀ v a, read v = some a ↔ v = put a)
    (h : ∀ v, AMap.get? l k = some v → ∃ a, v = put a) : ∃ o, optField read l k = some o := by
  simp only [optField_map hr]
  cases hg : AMap.get? l k with
  | none => exact ⟨none, rfl⟩
  | some v =>
    obtain ⟨a, rfl⟩ := h v hg
    exact ⟨some a, rfl⟩

/-- The settings of a table have their types. -/
def SettingsOk (l : Entries) : Prop :=
  ∀ n v τ, AMap.get? l n = some v → settingType n = some τ → HasType v τ

/-- Everything else in a table is a table. -/
def SubsOk (l : Entries) : Prop :=
  ∀ n v, AMap.get? l n = some v → settingType n = none → ∃ l', v = .table l'

theorem readFields_some {l : Entries} {f : TableFields} (h : readFields l = some f) :
    FieldsOf l f ∧ SettingsOk l := by
  simp only [readFields, Option.bind_eq_bind, Option.bind_eq_some_iff, Option.pure_def, Option.some.injEq,
    optField_map (fun v a => @asStr_iff v a), optField_map (fun v a => @asStrs_iff v a),
    optField_map (fun v a => @asBool_iff v a), optField_map (fun v a => @asBindings_iff v a)] at h
  obtain ⟨o1, h1, o2, h2, o3, h3, o4, h4, o5, h5, o6, h6, o7, h7, o8, h8, rfl⟩ := h
  constructor
  · constructor
    · cases o1 <;> simp_all
    · exact h2
    · exact h3
    · exact h4
    · exact h5
    · exact h6
    · exact h7
    · cases o8 <;> simp_all
  · intro n v τ hv hτ
    unfold settingType at hτ
    split at hτ <;> simp only [Option.some.injEq, reduceCtorEq] at hτ <;> subst hτ
    · rw [h1] at hv; cases o1 <;> simp at hv; exact ⟨_, hv.symm⟩
    · rw [h2] at hv; cases o2 <;> simp at hv; exact ⟨_, hv.symm⟩
    · rw [h3] at hv; cases o3 <;> simp at hv; exact ⟨_, hv.symm⟩
    · rw [h4] at hv; cases o4 <;> simp at hv; exact ⟨_, hv.symm⟩
    · rw [h5] at hv; cases o5 <;> simp at hv; exact ⟨_, hv.symm⟩
    · rw [h6] at hv; cases o6 <;> simp at hv; exact ⟨_, hv.symm⟩
    · rw [h7] at hv; cases o7 <;> simp at hv; exact ⟨_, hv.symm⟩
    · rw [h8] at hv; cases o8 <;> simp at hv; exact ⟨_, hv.symm⟩

theorem readFields_exists {l : Entries} (h : SettingsOk l) : ∃ f, readFields l = some f := by
  obtain ⟨o1, h1⟩ := optField_exists (k := "trait_uses") (fun v a => @asStrs_iff v a) fun v hv => h _ _ .texts hv rfl
  obtain ⟨o2, h2⟩ := optField_exists (k := "method") (fun v a => @asStr_iff v a) fun v hv => h _ _ .text hv rfl
  obtain ⟨o3, h3⟩ := optField_exists (k := "hook_targets") (fun v a => @asStrs_iff v a) fun v hv => h _ _ .texts hv rfl
  obtain ⟨o4, h4⟩ := optField_exists (k := "tail_expr_idents") (fun v a => @asStrs_iff v a) fun v hv => h _ _ .texts hv rfl
  obtain ⟨o5, h5⟩ := optField_exists (k := "ignore_tail_expr_idents") (fun v a => @asStrs_iff v a) fun v hv => h _ _ .texts hv rfl
  obtain ⟨o6, h6⟩ := optField_exists (k := "result_types") (fun v a => @asStrs_iff v a) fun v hv => h _ _ .texts hv rfl
  obtain ⟨o7, h7⟩ := optField_exists (k := "hook_in_macros") (fun v a => @asBool_iff v a) fun v hv => h _ _ .flag hv rfl
  obtain ⟨o8, h8⟩ := optField_exists (k := "bindings") (fun v a => @asBindings_iff v a) fun v hv => h _ _ .textMap hv rfl
  simp only [readFields, h1, h2, h3, h4, h5, h6, h7, h8, Option.bind_eq_bind, Option.bind_some]
  exact ⟨_, rfl⟩

theorem asTable_table {l : Entries} {t : Table} :
    (TomlVal.table l).asTable = some t ↔ ∃ f subs, readFields l = some f ∧ readSubs l = some subs ∧ t = .mk f subs := by
  rw [TomlVal.asTable]
  simp only [Option.bind_eq_bind, Option.bind_eq_some_iff, Option.pure_def, Option.some.injEq]
  constructor
  · rintro ⟨f, h1, s, h2, rfl⟩; exact ⟨f, s, h1, h2, rfl⟩
  · rintro ⟨f, s, h1, h2, rfl⟩; exact ⟨f, h1, s, h2, rfl⟩

theorem asTable_some {v : TomlVal} {t : Table} (h : v.asTable = some t) : ∃ l, v = .table l := by
  cases v with
  | table l => exact ⟨l, rfl⟩
  | _ => simp [TomlVal.asTable] at h

theorem readSubs_get {l : List (String × TomlVal)} {subs : List (String × Table)} (h : readSubs l = some subs)
    (n : String) :
    (n ∈ fieldNames → AMap.get? subs n = none) ∧
    (n ∉ fieldNames → AMap.get? l n = none → AMap.get? subs n = none) ∧
    ∀ v, n ∉ fieldNames → AMap.get? l n = some v → ∃ t, v.asTable = some t ∧ AMap.get? subs n = some t := by
  induction l generalizing subs with
  | nil =>
    simp only [readSubs, Option.some.injEq] at h
    subst h
    simp [AMap.get?]
  | cons kv l ih =>
    obtain ⟨k, v⟩ := kv
    rw [readSubs] at h
    split at h
    · rename_i hk
      obtain ⟨i1, i2, i3⟩ := ih h
      refine ⟨i1, fun hn hg => i2 hn ?_, fun v' hn hg => i3 v' hn ?_⟩
      all_goals
        rw [AMap.get?, if_neg (by rintro rfl; exact hn hk)] at hg
        exact hg
    · rename_i hk
      simp only [Option.bind_eq_bind, Option.bind_eq_some_iff, Option.pure_def, Option.some.injEq] at h
      obtain ⟨t, h1, r, h2, rfl⟩ := h
      obtain ⟨i1, i2, i3⟩ := ih h2
      simp only [AMap.get?]
      by_cases hkn : k = n
      · subst hkn
        simp only [↓reduceIte]
        refine ⟨fun h => absurd h hk, fun _ h => by simp at h, fun v' _ hv => ?_⟩
        cases hv
        exact ⟨t, h1, rfl⟩
      · simp only [if_neg hkn]
        exact ⟨i1, i2, i3⟩

theorem readToml_get {l : List (String × TomlVal)} {toml : AMap Table} (h : readToml l = some toml)
    (n : String) :
    (AMap.get? l n = none → AMap.get? toml n = none) ∧
    ∀ v, AMap.get? l n = some v → ∃ t, v.asTable = some t ∧ AMap.get? toml n = some t := by
  induction l generalizing toml with
  | nil =>
    simp only [readToml, Option.some.injEq] at h
    subst h
    simp [AMap.get?]
  | cons kv l ih =>
    obtain ⟨k, v⟩ := kv
    rw [readToml] at h
    simp only [Option.bind_eq_bind, Option.bind_eq_some_iff, Option.pure_def, Option.some.injEq] at h
    obtain ⟨t, h1, r, h2, rfl⟩ := h
    obtain ⟨i2, i3⟩ := ih h2
    simp only [AMap.get?]
    by_cases hkn : k = n
    · subst hkn
      simp only [↓reduceIte]
      refine ⟨fun h => by simp at h, fun v' hv => ?_⟩
      cases hv
      exact ⟨t, h1, rfl⟩
    · simp only [if_neg hkn]
      exact ⟨i2, i3⟩

/-- The table below `l` at a path without setting names is read as the sub-table at that
path. -/
theorem docDescend_iff {l : Entries} {t : Table} (h : (TomlVal.table l).asTable = some t) (q : List String)
    (t' : Table) : t.descend q = some t' ↔
      (∀ n ∈ q, settingType n = none) ∧ ∃ l', entriesAt l q = some l' ∧ (TomlVal.table l').asTable = some t' := by
  induction q generalizing l t with
  | nil => simp [Table.descend, entriesAt, h]
  | cons n q ih =>
    obtain ⟨f, subs, h1, h2, rfl⟩ := asTable_table.1 h
    obtain ⟨g1, g2, g3⟩ := readSubs_get h2 n
    simp only [Table.descend, Table.subs, entriesAt, List.forall_mem_cons]
    by_cases hn : n ∈ fieldNames
    · have := mt settingType_none.1 (not_not.2 hn)
      simp [g1 hn, this]
    · have hs := settingType_none.2 hn
      simp only [hs, true_and]
      cases hg : AMap.get? l n with
      | none => simp [g2 hn hg]
      | some v =>
        obtain ⟨t1, k1, k2⟩ := g3 v hn hg
        obtain ⟨l1, rfl⟩ := asTable_some k1
        simp only [k2, Option.bind_some]
        exact ih k1

theorem descend_exists {l : Entries} {t : Table} (h : (TomlVal.table l).asTable = some t) {q : List String}
    {l' : Entries} (hq : ∀ n ∈ q, settingType n = none) (he : entriesAt l q = some l') :
    ∃ t', (TomlVal.table l').asTable = some t' := by
  induction q generalizing l t with
  | nil =>
    simp only [entriesAt, Option.some.injEq] at he
    subst he
    exact ⟨t, h⟩
  | cons n q ih =>
    obtain ⟨f, subs, h1, h2, rfl⟩ := asTable_table.1 h
    obtain ⟨hn, hq⟩ := List.forall_mem_cons.1 hq
    simp only [entriesAt] at he
    split at he
    · rename_i l1 hg
      obtain ⟨t1, k1, -⟩ := (readSubs_get h2 n).2.2 _ (settingType_none.1 hn) hg
      exact ih k1 hq he
    · simp at he

theorem asTable_ok {l : Entries} {t : Table} (h : (TomlVal.table l).asTable = some t) :
    SettingsOk l ∧ SubsOk l := by
  obtain ⟨f, subs, h1, h2, rfl⟩ := asTable_table.1 h
  refine ⟨(readFields_some h1).2, fun n v hv hn => ?_⟩
  obtain ⟨t, k, -⟩ := (readSubs_get h2 n).2.2 v (settingType_none.1 hn) hv
  exact asTable_some k

/-- Everything in a table and below it is as it should be. -/
def GoodFrom (l : Entries) : Prop :=
  ∀ q l', (∀ n ∈ q, settingType n = none) → entriesAt l q = some l' → SettingsOk l' ∧ SubsOk l'

mutual
theorem asTable_exists : ∀ (v : TomlVal), v.Uniq → (∃ l, v = .table l ∧ GoodFrom l) → ∃ t, v.asTable = some t
  | .table l, hu, h => by
    obtain ⟨l', he, hg⟩ := h
    simp only [TomlVal.table.injEq] at he
    subst he
    obtain ⟨h1, h2⟩ := hg [] l (by simp) rfl
    obtain ⟨f, hf⟩ := readFields_exists h1
    obtain ⟨s, hs⟩ := readSubs_exists l hu.2 fun kv hkv hn => by
      have hget := (AMap.mem_iff_get? l hu.1 _ _).1 hkv
      obtain ⟨l', hl'⟩ := h2 kv.1 kv.2 hget (settingType_none.2 hn)
      refine ⟨l', hl', fun q l'' hq he => hg (kv.1 :: q) l'' ?_ ?_⟩
      · simpa [settingType_none.2 hn] using hq
      · simp only [entriesAt, hget, hl', he]
    exact ⟨_, asTable_table.2 ⟨f, s, hf, hs, rfl⟩⟩
  | .str _, _, h => by simp at h
  | .bool _, _, h => by simp at h
  | .other, _, h => by simp at h
  | .arr _, _, h => by simp at h
theorem readSubs_exists : ∀ (l : List (String × TomlVal)), EntriesUniq l →
    (∀ kv ∈ l, kv.1 ∉ fieldNames → ∃ l', kv.2 = .table l' ∧ GoodFrom l') → ∃ s, readSubs l = some s
  | [], _, _ => ⟨[], by rw [readSubs]⟩
  | (k, v) :: rest, hu, h => by
    obtain ⟨s, hs⟩ := readSubs_exists rest hu.2 fun kv hkv => h kv (List.mem_cons_of_mem _ hkv)
    rw [readSubs]
    by_cases hk : k ∈ fieldNames
    · rw [if_pos hk]; exact ⟨s, hs⟩
    · rw [if_neg hk]
      obtain ⟨t, ht⟩ := asTable_exists v hu.1 (h (k, v) (by simp) hk)
      exact ⟨(k, t) :: s, by simp [ht, hs]⟩
end

theorem readToml_exists : ∀ (l : List (String × TomlVal)), EntriesUniq l →
    (∀ kv ∈ l, ∃ l', kv.2 = .table l' ∧ GoodFrom l') → ∃ s, readToml l = some s
  | [], _, _ => ⟨[], rfl⟩
  | (k, v) :: rest, hu, h => by
    obtain ⟨s, hs⟩ := readToml_exists rest hu.2 fun kv hkv => h kv (List.mem_cons_of_mem _ hkv)
    obtain ⟨t, ht⟩ := asTable_exists v hu.1 (h (k, v) (by simp))
    exact ⟨(k, t) :: s, by simp [readToml, ht, hs]⟩

/-- C59, exactly the well-typed documents are accepted: every top-level entry is a table, in
every flavor table every setting has its type and everything else is a table. -/
theorem C59_accepted {doc : Entries} (hu : UniqDoc doc) : (∃ toml, readToml doc = some toml) ↔ GoodDoc doc := by
  constructor
  · rintro ⟨toml, h⟩
    have key : ∀ q l, FlavorName q → entriesAt doc q = some l → SettingsOk l ∧ SubsOk l := by
      intro q l hq he
      cases q with
      | nil => exact absurd hq (by simp [FlavorName])
      | cons n q =>
        simp only [entriesAt] at he
        split at he
        · rename_i l1 hg
          obtain ⟨t, k1, -⟩ := (readToml_get h n).2 _ hg
          obtain ⟨t', ht'⟩ := descend_exists k1 hq he
          exact asTable_ok ht'
        · simp at he
    refine ⟨fun n v hv => ?_, fun q l n v τ hq he hv hτ => (key q l hq he).1 n v τ hv hτ,
      fun q l n v hq he hv hn => (key q l hq he).2 n v hv hn⟩
    obtain ⟨t, k1, -⟩ := (readToml_get h n).2 v hv
    exact asTable_some k1
  · intro h
    refine readToml_exists doc hu.2 fun kv hkv => ?_
    have hget := (AMap.mem_iff_get? doc hu.1 _ _).1 hkv
    obtain ⟨l', hl'⟩ := h.top _ _ hget
    refine ⟨l', hl', fun q l'' hq he => ?_⟩
    have he' : entriesAt doc (kv.1 :: q) = some l'' := by simp only [entriesAt, hget, hl', he]
    exact ⟨fun n v τ hv hτ => h.setting (kv.1 :: q) l'' n v τ hq he' hv hτ,
      fun n v hv hn => h.sub (kv.1 :: q) l'' n v hq he' hv hn⟩

/-- C59, a misspelt or misplaced setting is never ignored: a document in which a flavor
table has an unknown key with a value that is not a table is rejected. -/
theorem C59_misspelt {doc : Entries} (hu : UniqDoc doc) {q : List String} {l : Entries} {n : String}
    {v : TomlVal} (hq : FlavorName q) (he : entriesAt doc q = some l) (hv : AMap.get? l n = some v)
    (hn : settingType n = none) (ht : ∀ l', v ≠ .table l') : readToml doc = none := by
  cases h : readToml doc with
  | none => rfl
  | some toml =>
    obtain ⟨l', hl'⟩ := ((C59_accepted hu).1 ⟨toml, h⟩).sub q l n v hq he hv hn
    exact absurd hl' (ht l')

/-- C59, the tables of an accepted document are its flavors: a flavor table at a path exists
exactly if the document has a table there and no name after the first is that of a setting. -/
theorem C59_tables {doc : Entries} {toml : AMap Table} (h : readToml doc = some toml) (q : List String) :
    (∃ t, tableAt toml q = some t) ↔ FlavorName q ∧ ∃ l, entriesAt doc q = some l := by
  cases q with
  | nil => simp [tableAt, FlavorName]
  | cons n q =>
    simp only [tableAt, entriesAt, FlavorName]
    cases hg : AMap.get? doc n with
    | none => simp [(readToml_get h n).1 hg]
    | some v =>
      obtain ⟨t, k1, k2⟩ := (readToml_get h n).2 v hg
      obtain ⟨l, rfl⟩ := asTable_some k1
      simp only [k2, Option.bind_some, docDescend_iff k1]
      constructor
      · rintro ⟨t', hq, l', he, -⟩; exact ⟨hq, l', he⟩
      · rintro ⟨hq, l', he⟩
        obtain ⟨t', ht'⟩ := descend_exists k1 hq he
        exact ⟨t', hq, l', he, ht'⟩

/-- C59, the settings of a flavor table are those of the document. -/
theorem C59_fields {doc : Entries} {toml : AMap Table} (h : readToml doc = some toml) {q : List String}
    {t : Table} (ht : tableAt toml q = some t) : ∃ l, entriesAt doc q = some l ∧ FieldsOf l t.fields := by
  cases q with
  | nil => simp [tableAt] at ht
  | cons n q =>
    simp only [tableAt, Option.bind_eq_some_iff] at ht
    obtain ⟨t1, h1, h2⟩ := ht
    simp only [entriesAt]
    cases hg : AMap.get? doc n with
    | none => simp [(readToml_get h n).1 hg] at h1
    | some v =>
      obtain ⟨t, k1, k2⟩ := (readToml_get h n).2 v hg
      rw [h1] at k2
      simp only [Option.some.injEq] at k2
      subst k2
      obtain ⟨l, rfl⟩ := asTable_some k1
      obtain ⟨-, l', he, h3⟩ := (docDescend_iff k1 q _).1 h2
      obtain ⟨f, subs, g1, g2, rfl⟩ := asTable_table.1 h3
      exact ⟨l', he, (readFields_some g1).1⟩


/-! ## The tables of a document have no key twice -/

theorem readSubs_keys {l : List (String × TomlVal)} {subs : List (String × Table)} (h : readSubs l = some subs) :
    (AMap.keys subs).Sublist (AMap.keys l) := by
  induction l generalizing subs with
  | nil => simp only [readSubs, Option.some.injEq] at h; subst h; exact .slnil
  | cons kv l ih =>
    obtain ⟨k, v⟩ := kv
    rw [readSubs] at h
    split at h
    · exact (ih h).cons _
    · simp only [Option.bind_eq_bind, Option.bind_eq_some_iff, Option.pure_def, Option.some.injEq] at h
      obtain ⟨t, h1, r, h2, rfl⟩ := h
      exact (ih h2).cons_cons _

theorem readToml_keys {l : List (String × TomlVal)} {toml : AMap Table} (h : readToml l = some toml) :
    AMap.keys toml = AMap.keys l := by
  induction l generalizing toml with
  | nil => simp only [readToml, Option.some.injEq] at h; subst h; rfl
  | cons kv l ih =>
    obtain ⟨k, v⟩ := kv
    simp only [readToml, Option.bind_eq_bind, Option.bind_eq_some_iff, Option.pure_def, Option.some.injEq] at h
    obtain ⟨t, h1, r, h2, rfl⟩ := h
    simpa [AMap.keys] using ih h2

theorem readFields_bindings {l : Entries} (hu : EntriesUniq l) {f : TableFields} (h : readFields l = some f) :
    (AMap.keys f.bindings).Nodup := by
  rcases (readFields_some h).1.bindings with h1 | ⟨-, h1⟩
  · have : ∀ (l : List (String × TomlVal)) k v, EntriesUniq l → AMap.get? l k = some v → v.Uniq := by
      intro l
      induction l with
      | nil => intro k v _ h; simp [AMap.get?] at h
      | cons kv l ih =>
        obtain ⟨k', v'⟩ := kv
        intro k v hu h
        rw [AMap.get?] at h
        split at h
        · cases h; exact hu.1
        · exact ih k v hu.2 h
    have := (this l _ _ hu h1).1
    simpa [AMap.keys, Function.comp_def] using this
  · simp [h1, AMap.keys]

mutual
theorem asTable_uniq : ∀ (v : TomlVal) (t : Table), v.Uniq → v.asTable = some t → t.Uniq
  | .table l, t, hu, h => by
    obtain ⟨f, s, h1, h2, rfl⟩ := asTable_table.1 h
    exact ⟨readFields_bindings hu.2 h1, (readSubs_keys h2).nodup hu.1, readSubs_uniq l s hu.2 h2⟩
  | .str _, _, _, h => by simp [TomlVal.asTable] at h
  | .bool _, _, _, h => by simp [TomlVal.asTable] at h
  | .other, _, _, h => by simp [TomlVal.asTable] at h
  | .arr _, _, _, h => by simp [TomlVal.asTable] at h
theorem readSubs_uniq : ∀ (l : List (String × TomlVal)) (s : List (String × Table)), EntriesUniq l →
    readSubs l = some s → TablesUniq s
  | [], s, _, h => by rw [readSubs] at h; cases h; trivial
  | (k, v) :: rest, s, hu, h => by
    rw [readSubs] at h
    split at h
    · exact readSubs_uniq rest s hu.2 h
    · simp only [Option.bind_eq_bind, Option.bind_eq_some_iff, Option.pure_def, Option.some.injEq] at h
      obtain ⟨t, h1, r, h2, rfl⟩ := h
      exact ⟨asTable_uniq v t hu.1 h1, readSubs_uniq rest r hu.2 h2⟩
end

/-- What the theorems about applying a file assume of it. -/
theorem readToml_uniq {doc : Entries} (hu : UniqDoc doc) {toml : AMap Table} (h : readToml doc = some toml) :
    UniqToml toml := by
  refine ⟨by rw [readToml_keys h]; exact hu.1, ?_⟩
  have : ∀ (l : List (String × TomlVal)) toml, EntriesUniq l → readToml l = some toml → TablesUniq toml := by
    intro l
    induction l with
    | nil => intro toml _ h; simp only [readToml, Option.some.injEq] at h; subst h; trivial
    | cons kv l ih =>
      obtain ⟨k, v⟩ := kv
      intro toml hu h
      simp only [readToml, Option.bind_eq_bind, Option.bind_eq_some_iff, Option.pure_def, Option.some.injEq] at h
      obtain ⟨t, h1, r, h2, rfl⟩ := h
      exact ⟨asTable_uniq v t hu.1 h1, ih r hu.2 h2⟩
  exact this doc toml hu.2 h

/-- C59, from the document to the flavors: in every accepted file, every flavor table of the
document gives a flavor at its path, whose settings are those it starts from (C35), with
the settings that the document has in that table. -/
theorem C59_flavors {env : TomlEnv} {dflt : Settings} {m m' : FlavorMap} {doc : Entries} {toml : AMap Table}
    (hu : UniqDoc doc) (hm : UniqMap m) (hr : readToml doc = some toml)
    (h : applyToml env dflt m toml = .ok m') {q : List String} {l : Entries} (hq : FlavorName q)
    (he : entriesAt doc q = some l) :
    ∃ o f' fields, Origin m m' (.mk dflt []) q o ∧ Reaches m' q f' ∧ FieldsOf l fields ∧
      FieldsOver env fields o.settings f'.settings := by
  obtain ⟨t, ht⟩ := (C59_tables hr q).2 ⟨hq, l, he⟩
  obtain ⟨l', he', hf⟩ := C59_fields hr ht
  rw [he] at he'
  cases he'
  obtain ⟨o, f', h1, h2, h3⟩ := C35_fields_partial (readToml_uniq hu hr) hm h ht
  exact ⟨o, f', t.fields, h1, h2, hf, h3⟩

/-- C59, the other direction: a name that is not in the document and not among the flavors
before is no flavor afterwards. -/
theorem C59_no_others {env : TomlEnv} {dflt : Settings} {m m' : FlavorMap} {doc : Entries} {toml : AMap Table}
    (hr : readToml doc = some toml) (h : applyToml env dflt m toml = .ok m') {n : String}
    (hn : AMap.get? doc n = none) : m'.get? n = m.get? n := by
  refine update_names h n ?_
  rw [readToml_keys hr]
  intro hk
  have : ∀ l : List (String × TomlVal), n ∈ AMap.keys l → AMap.get? l n ≠ none := by
    intro l
    induction l with
    | nil => simp [AMap.keys]
    | cons kv l ih =>
      obtain ⟨k, v⟩ := kv
      intro hk
      rw [AMap.get?]
      split
      · simp
      · rename_i hne
        refine ih ?_
        simp only [AMap.keys, List.map_cons, List.mem_cons] at hk ⊢
        rcases hk with rfl | hk
        · exact absurd rfl hne
        · exact hk
  exact this doc hk hn

/-! ## Examples -/

/-- ```toml
[mine]
hook_targets = ["?"]
bindings = { a = "1" }
[mine.method_x]
hook_in_macros = true
``` -/
def Ex.doc : Entries :=
  [("mine", .table [("hook_targets", .arr [.str "?"]), ("bindings", .table [("a", .str "1")]),
    ("method_x", .table [("hook_in_macros", .bool true)])])]

example : ∃ toml t l, readToml Ex.doc = some toml ∧ tableAt toml ["mine", "method_x"] = some t ∧
    t.fields.hookInMacros = some true ∧ UniqDoc Ex.doc ∧ FlavorName ["mine", "method_x"] ∧
    entriesAt Ex.doc ["mine", "method_x"] = some l :=
  ⟨_, _, _, rfl, rfl, rfl, by simp [UniqDoc, Ex.doc, AMap.keys, EntriesUniq, TomlVal.Uniq],
    by simp [FlavorName, settingType], rfl⟩

/-- `[mine] methods = ".x()"` is rejected, and so is `[mine.method]`. -/
example : readToml [("mine", .table [("methods", .str ".x()")])] = none ∧
    readToml [("mine", .table [("method", .table [])])] = none ∧
    UniqDoc [("mine", .table [("methods", .str ".x()")])] ∧ settingType "methods" = none :=
  ⟨rfl, rfl, by simp [UniqDoc, AMap.keys, EntriesUniq, TomlVal.Uniq], rfl⟩

/-- `[method]` is a flavor called `method`. -/
example : ∃ toml t, readToml [("method", .table [("method", .str ".x()")])] = some toml ∧
    tableAt toml ["method"] = some t ∧ t.fields.method = some ".x()" := ⟨_, _, rfl, rfl, rfl⟩

end Hooq
