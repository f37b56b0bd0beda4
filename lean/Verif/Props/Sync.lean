import Verif.Spec.Sync
import Verif.Proof.AttrSpec

/-!
# The release script leaves the repository in order

C84: with `--check` the script changes nothing and succeeds exactly if the repository is in order;
without it, a successful run leaves the repository in order.
-/

namespace Hooq

/-! ## Running parts of the script -/

theorem script_bind {α β : Type} (x : Script α) (f : α → Script β) (r r' : Repo) (b : β) :
    (x >>= f) r = (some b, r') ↔ ∃ a r1, x r = (some a, r1) ∧ f a r1 = (some b, r') := by
  change (match x r with | (some a, r1) => f a r1 | (none, r1) => (none, r1)) = _ ↔ _
  rcases x r with ⟨_ | a, r1⟩
  · simp
  · simp only [Prod.mk.injEq, Option.some.injEq]
    exact ⟨fun h => ⟨a, r1, ⟨rfl, rfl⟩, h⟩, fun ⟨_, _, ⟨h1, h2⟩, h⟩ => by subst h1 h2; exact h⟩

theorem script_pure {α : Type} (a b : α) (r r' : Repo) :
    (pure a : Script α) r = (some b, r') ↔ b = a ∧ r' = r := by
  change (some a, r) = _ ↔ _
  simp only [Prod.mk.injEq, Option.some.injEq]
  exact ⟨fun ⟨h1, h2⟩ => ⟨h1.symm, h2.symm⟩, fun ⟨h1, h2⟩ => ⟨h1.symm, h2.symm⟩⟩

theorem script_need {α : Type} (o : Option α) (b : α) (r r' : Repo) :
    Script.need o r = (some b, r') ↔ o = some b ∧ r' = r := by
  simp only [Script.need, Prod.mk.injEq]
  exact ⟨fun ⟨h1, h2⟩ => ⟨h1, h2.symm⟩, fun ⟨h1, h2⟩ => ⟨h1, h2.symm⟩⟩

theorem script_read (p : String) (b : String) (r r' : Repo) :
    Script.read p r = (some b, r') ↔ r.files p = some b ∧ r' = r := by
  simp only [Script.read, Prod.mk.injEq]
  exact ⟨fun ⟨h1, h2⟩ => ⟨h1, h2.symm⟩, fun ⟨h1, h2⟩ => ⟨h1, h2.symm⟩⟩

theorem script_ensure (c : Bool) (u : Unit) (r r' : Repo) :
    Script.ensure c r = (some u, r') ↔ c = true ∧ r' = r := by
  cases c <;> simp [Script.ensure, eq_comm]

theorem script_write (p s : String) (u : Unit) (r r' : Repo) :
    Script.write p s r = (some u, r') ↔
      r' = { r with files := fun q => if q = p then some s else r.files q } := by
  simp [Script.write, eq_comm]

/-- A part that changes nothing. -/
def Quiet {α : Type} (x : Script α) : Prop := ∀ r, (x r).2 = r

theorem Quiet.bind {α β : Type} {x : Script α} {f : α → Script β} (hx : Quiet x) (hf : ∀ a, Quiet (f a)) :
    Quiet (x >>= f) := by
  intro r
  change (match x r with | (some a, r1) => f a r1 | (none, r1) => (none, r1)).2 = r
  have := hx r
  rcases h : x r with ⟨_ | a, r1⟩
  · rw [h] at this; exact this
  · rw [h] at this; subst this; exact hf a _

theorem Quiet.pure {α : Type} (a : α) : Quiet (pure a : Script α) := fun _ => rfl
theorem Quiet.need {α : Type} (o : Option α) : Quiet (Script.need o) := fun _ => rfl
theorem Quiet.read (p : String) : Quiet (Script.read p) := fun _ => rfl
theorem Quiet.ensure (c : Bool) : Quiet (Script.ensure c) := fun _ => rfl

theorem quiet_entry (version krate : String) (c : TomlVal) : Quiet (syncEntry true version krate c) :=
  .bind (.need _) fun _ => .bind (.need _) fun _ => .bind (.ensure _) fun _ => .pure _

theorem quiet_versions (E : SyncEnv) : Quiet (syncVersions E true) :=
  .bind (.read _) fun _ => .bind (.need _) fun _ => .bind (.need _) fun _ => .bind (.need _) fun _ =>
    .bind (.read _) fun _ => .bind (.need _) fun _ => .bind (quiet_entry _ _ _) fun _ =>
      .bind (quiet_entry _ _ _) fun _ => .pure _

theorem quiet_file (p s : String) : Quiet (syncFile true p s) :=
  .bind (.read _) fun _ => .ensure _

theorem quiet_readme (E : SyncEnv) (version lang : String) : Quiet (syncReadme E true version lang) :=
  .bind (.read _) fun _ => .bind (.need _) fun _ => .bind (.read _) fun _ => .bind (.need _) fun _ =>
    .bind (quiet_file _ _) fun _ => .bind (quiet_file _ _) fun _ => .bind (.read _) fun _ =>
      .bind (.need _) fun _ => .bind (quiet_file _ _) fun _ => quiet_file _ _

theorem quiet_main (E : SyncEnv) (mode : SyncMode) : Quiet (syncMain E true mode) := by
  refine .bind (quiet_versions E) fun _ => .bind ?_ fun _ => .bind (fun _ => rfl) fun _ =>
    .bind (quiet_readme _ _ _) fun _ => .bind (quiet_readme _ _ _) fun _ => ?_
  · cases mode
    · exact .need _
    · exact .pure _
    · exact .pure _
  · split
    · rename_i h; exact absurd h.2 (by decide)
    · exact .pure _

/-! ## Tables -/

theorem find_get (l : AMap TomlVal) (k : String) (v : TomlVal) :
    l.find? (fun e => e.1 == k) = some (k, v) ↔ l.get? k = some v := by
  induction l with
  | nil => simp [AMap.get?]
  | cons e l ih =>
    obtain ⟨a, b⟩ := e
    simp only [List.find?_cons, AMap.get?]
    by_cases h : a = k
    · subst h; simp
    · simp only [beq_eq_false_iff_ne.2 h, if_neg h]; exact ih

theorem stands_iff (s : String) (ks : List String) (v : TomlVal) :
    Stands s ks v ↔ ∃ e, v.lookup ks = some e ∧ e.asStr = some s := by
  induction ks generalizing v with
  | nil =>
    simp only [TomlVal.lookup, Option.some.injEq, exists_eq_left']
    constructor
    · rintro ⟨⟩; rfl
    · intro h
      cases v <;> simp [TomlVal.asStr] at h
      subst h; exact .here
  | cons k ks ih =>
    constructor
    · intro h
      cases h with
      | under h1 h2 =>
        simp only [TomlVal.lookup, (find_get _ _ _).1 h1, Option.bind_some]
        exact (ih _).1 h2
    · rintro ⟨e, h1, h2⟩
      cases v with
      | table l =>
        simp only [TomlVal.lookup, Option.bind_eq_some_iff] at h1
        obtain ⟨v, h3, h4⟩ := h1
        exact .under ((find_get _ _ _).2 h3) ((ih v).2 ⟨e, h4, h2⟩)
      | _ => simp [TomlVal.lookup] at h1

/-- What was assigned stands there. -/
theorem assign_stands {s : String} {ks : List String} {v w : TomlVal} (h : v.assign s ks = some w) :
    Stands s ks w := by
  induction ks generalizing v w with
  | nil => cases h; exact .here
  | cons k ks ih =>
    cases v with
    | table l =>
      simp only [TomlVal.assign, Option.bind_eq_some_iff, Option.map_eq_some_iff] at h
      obtain ⟨a, _, b, h2, rfl⟩ := h
      refine .under ((find_get _ _ _).2 ?_) (ih h2)
      rw [AMap.get?_insert, if_pos rfl]
    | _ => simp [TomlVal.assign] at h

/-- What stands elsewhere stays. -/
theorem assign_other {s t : String} {ks js : List String} {v w : TomlVal} (h : v.assign s ks = some w)
    (h1 : ¬ ks <+: js) (h2 : ¬ js <+: ks) (h3 : Stands t js v) : Stands t js w := by
  induction ks generalizing v w js with
  | nil => exact absurd (List.nil_prefix) h1
  | cons k ks ih =>
    cases v with
    | table l =>
      simp only [TomlVal.assign, Option.bind_eq_some_iff, Option.map_eq_some_iff] at h
      obtain ⟨a, g1, b, g2, rfl⟩ := h
      cases h3 with
      | @under j js _ u g3 g4 =>
        rw [find_get] at g3
        by_cases hk : k = j
        · subst hk
          have hab : a = u := Option.some.inj (g1.symm.trans g3)
          subst hab
          refine .under ((find_get _ _ _).2 ?_)
            (ih g2 (fun h => h1 (List.cons_prefix_cons.2 ⟨rfl, h⟩))
              (fun h => h2 (List.cons_prefix_cons.2 ⟨rfl, h⟩)) g4)
          rw [AMap.get?_insert, if_pos rfl]
        · refine .under ((find_get _ _ _).2 ?_) g4
          rw [AMap.get?_insert, if_neg hk]; exact g3
    | _ => simp [TomlVal.assign] at h

/-! ## The published version -/

theorem entry_iff (v : CrateVersion) (n : String) (t : Int) :
    v.entry = some (n, t) ↔ v = ⟨n, false, some t⟩ := by
  obtain ⟨a, y, c⟩ := v
  cases y <;> cases c <;> simp [CrateVersion.entry]

theorem maxByKey_none {l : List (String × Int)} (h : maxByKey l = none) : l = [] := by
  cases l with
  | nil => rfl
  | cons a l =>
    simp only [maxByKey] at h
    split at h
    · cases h
    · split at h <;> cases h

theorem maxByKey_some (l : List CrateVersion) (n : String) (t : Int) :
    maxByKey (l.filterMap CrateVersion.entry) = some (n, t) ↔
      ∃ before after, l = before ++ ⟨n, false, some t⟩ :: after ∧
        (∀ m u, ⟨m, false, some u⟩ ∈ before → u ≤ t) ∧ (∀ m u, ⟨m, false, some u⟩ ∈ after → u < t) := by
  induction l generalizing n t with
  | nil => simp [maxByKey]
  | cons v l ih =>
    have key : ∀ m u, (∃ before after, v :: l = before ++ ⟨m, false, some u⟩ :: after ∧
        (∀ m' u', ⟨m', false, some u'⟩ ∈ before → u' ≤ u) ∧ (∀ m' u', ⟨m', false, some u'⟩ ∈ after → u' < u)) ↔
        (v = ⟨m, false, some u⟩ ∧ ∀ m' u', ⟨m', false, some u'⟩ ∈ l → u' < u) ∨
        ((∀ m' u', v = ⟨m', false, some u'⟩ → u' ≤ u) ∧ maxByKey (l.filterMap CrateVersion.entry) = some (m, u)) := by
      intro m u
      constructor
      · rintro ⟨_ | ⟨b, before⟩, after, h1, h2, h3⟩
        · cases h1; exact .inl ⟨rfl, h3⟩
        · cases h1
          exact .inr ⟨fun m' u' h => h2 m' u' (by rw [h]; exact .head _),
            (ih m u).2 ⟨before, after, rfl, fun m' u' h => h2 m' u' (.tail _ h), h3⟩⟩
      · rintro (⟨rfl, h⟩ | ⟨h1, h2⟩)
        · exact ⟨[], l, rfl, by simp, h⟩
        · obtain ⟨before, after, rfl, h3, h4⟩ := (ih m u).1 h2
          refine ⟨v :: before, after, rfl, fun m' u' h => ?_, h4⟩
          cases h with
          | head => exact h1 m' u' rfl
          | tail _ h => exact h3 m' u' h
    rw [key n t]
    cases hv : v.entry with
    | none =>
      rw [List.filterMap_cons_none hv]
      constructor
      · intro h
        refine .inr ⟨fun m' u' h' => ?_, h⟩
        rw [(entry_iff v m' u').2 h'] at hv; cases hv
      · rintro (⟨h, _⟩ | ⟨_, h⟩)
        · rw [(entry_iff v n t).2 h] at hv; cases hv
        · exact h
    | some e =>
      obtain ⟨m, u⟩ := e
      rw [List.filterMap_cons_some hv]
      obtain rfl := (entry_iff v m u).1 hv
      simp only [maxByKey]
      cases hl : maxByKey (l.filterMap CrateVersion.entry) with
      | none =>
        simp only [Option.some.injEq, Prod.mk.injEq, reduceCtorEq, and_false, or_false,
          CrateVersion.mk.injEq, true_and]
        constructor
        · rintro ⟨rfl, rfl⟩
          refine ⟨⟨rfl, rfl⟩, fun m' u' h => ?_⟩
          have : (m', u') ∈ l.filterMap CrateVersion.entry :=
            List.mem_filterMap.2 ⟨_, h, (entry_iff _ _ _).2 rfl⟩
          rw [maxByKey_none hl] at this; cases this
        · rintro ⟨⟨h1, h2⟩, _⟩; exact ⟨h1, h2⟩
      | some b =>
        obtain ⟨m2, u2⟩ := b
        obtain ⟨before, after, rfl, g1, g2⟩ := (ih m2 u2).1 hl
        have hmem : (⟨m2, false, some u2⟩ : CrateVersion) ∈ before ++ ⟨m2, false, some u2⟩ :: after := by simp
        have hmax : ∀ m' u', (⟨m', false, some u'⟩ : CrateVersion) ∈ before ++ ⟨m2, false, some u2⟩ :: after →
            u' ≤ u2 := by
          intro m' u' h
          rcases List.mem_append.1 h with h | h
          · exact g1 m' u' h
          · cases h with
            | head => exact Int.le_refl _
            | tail _ h => exact Int.le_of_lt (g2 m' u' h)
        simp only [CrateVersion.mk.injEq, Option.some.injEq, true_and, Prod.mk.injEq]
        by_cases hle : u ≤ u2
        · simp only [if_pos hle, Option.some.injEq, Prod.mk.injEq]
          constructor
          · rintro ⟨rfl, rfl⟩
            exact .inr ⟨fun m' u' h => by rw [← h.2]; exact hle, rfl, rfl⟩
          · rintro (⟨⟨rfl, rfl⟩, h⟩ | ⟨_, h⟩)
            · exact absurd (h m2 u2 hmem) (Int.not_lt.2 hle)
            · exact h
        · simp only [if_neg hle, Option.some.injEq, Prod.mk.injEq]
          constructor
          · rintro ⟨rfl, rfl⟩
            exact .inl ⟨⟨rfl, rfl⟩, fun m' u' h => Int.lt_of_le_of_lt (hmax m' u' h) (Int.not_le.1 hle)⟩
          · rintro (⟨h, _⟩ | ⟨h, rfl, rfl⟩)
            · exact h
            · exact absurd (h m u ⟨rfl, rfl⟩) hle

theorem published_iff (E : SyncEnv) (s : String) : publishedVersion E = some s ↔ Newest E s := by
  have : publishedVersion E = some s ↔
      ∃ l, E.versions = some l ∧ ∃ t, maxByKey (l.filterMap CrateVersion.entry) = some (s, t) := by
    change (E.versions.bind fun l => (maxByKey (l.filterMap CrateVersion.entry)).bind fun b => some b.1) = _ ↔ _
    simp only [Option.bind_eq_some_iff, Option.some.injEq]
    constructor
    · rintro ⟨l, h1, ⟨n, t⟩, h2, rfl⟩; exact ⟨l, h1, t, h2⟩
    · rintro ⟨l, h1, t, h2⟩; exact ⟨l, h1, _, h2, rfl⟩
  rw [this]
  constructor
  · rintro ⟨l, h1, t, h2⟩
    obtain ⟨before, after, rfl, h3, h4⟩ := (maxByKey_some l s t).1 h2
    exact ⟨before, after, t, h1, h3, h4⟩
  · rintro ⟨before, after, t, h1, h3, h4⟩
    exact ⟨_, h1, t, (maxByKey_some _ s t).2 ⟨before, after, rfl, h3, h4⟩⟩

/-! ## Checking -/

theorem file_check (p s : String) (u : Unit) (r r' : Repo) :
    syncFile true p s r = (some u, r') ↔ r.files p = some s ∧ r' = r := by
  simp only [syncFile, if_true, script_bind, script_read, script_ensure, beq_iff_eq]
  constructor
  · rintro ⟨a, r1, ⟨h1, rfl⟩, rfl, rfl⟩; exact ⟨h1, rfl⟩
  · rintro ⟨h, rfl⟩; exact ⟨s, r', ⟨h, rfl⟩, rfl, rfl⟩

theorem entry_check (version krate : String) (c d : TomlVal) (r r' : Repo) :
    syncEntry true version krate c r = (some d, r') ↔
      Stands version ["dependencies", krate, "version"] c ∧ d = c ∧ r' = r := by
  simp only [syncEntry, if_true, script_bind, script_need, script_ensure, script_pure, beq_iff_eq, stands_iff]
  constructor
  · rintro ⟨e, _, ⟨h1, rfl⟩, s, _, ⟨h2, rfl⟩, _, _, ⟨rfl, rfl⟩, rfl, rfl⟩; exact ⟨⟨e, h1, h2⟩, rfl, rfl⟩
  · rintro ⟨⟨e, h1, h2⟩, rfl, rfl⟩
    exact ⟨e, _, ⟨h1, rfl⟩, version, _, ⟨h2, rfl⟩, (), _, ⟨rfl, rfl⟩, rfl, rfl⟩

theorem versions_check (E : SyncEnv) (version : String) (r r' : Repo) :
    syncVersions E true r = (some version, r') ↔
      (StandsIn E r.files "./Cargo.toml" ["workspace", "package", "version"] version ∧
        ∀ krate ∈ ["hooq-macros", "hooq-helpers"],
          StandsIn E r.files "./hooq/Cargo.toml" ["dependencies", krate, "version"] version) ∧ r' = r := by
  simp only [syncVersions, if_true, script_bind, script_need, script_read, script_pure, entry_check]
  constructor
  · rintro ⟨w, _, ⟨h1, rfl⟩, wv, _, ⟨h2, rfl⟩, v, _, ⟨h3, rfl⟩, s, _, ⟨h4, rfl⟩, c, _, ⟨h5, rfl⟩,
      cv, _, ⟨h6, rfl⟩, _, _, ⟨h7, rfl, rfl⟩, _, _, ⟨h8, rfl, rfl⟩, rfl, rfl⟩
    refine ⟨⟨⟨w, wv, h1, h2, (stands_iff _ _ _).2 ⟨v, h3, h4⟩⟩, fun krate hk => ?_⟩, rfl⟩
    simp only [List.mem_cons, List.not_mem_nil, or_false] at hk
    rcases hk with rfl | rfl
    · exact ⟨c, _, h5, h6, h7⟩
    · exact ⟨c, _, h5, h6, h8⟩
  · rintro ⟨⟨⟨w, wv, h1, h2, h3⟩, h⟩, rfl⟩
    obtain ⟨v, h3, h4⟩ := (stands_iff _ _ _).1 h3
    obtain ⟨c, cv, h5, h6, h7⟩ := h "hooq-macros" (by simp)
    obtain ⟨c', cv', h5', h6', h8⟩ := h "hooq-helpers" (by simp)
    obtain rfl : c = c' := Option.some.inj (h5.symm.trans h5')
    obtain rfl : cv = cv' := Option.some.inj (h6.symm.trans h6')
    exact ⟨w, _, ⟨h1, rfl⟩, wv, _, ⟨h2, rfl⟩, v, _, ⟨h3, rfl⟩, version, _, ⟨h4, rfl⟩, c, _, ⟨h5, rfl⟩,
      cv, _, ⟨h6, rfl⟩, _, _, ⟨h7, rfl, rfl⟩, _, _, ⟨h8, rfl, rfl⟩, rfl, rfl⟩

theorem readme_check (E : SyncEnv) (shown lang : String) (u : Unit) (r r' : Repo) :
    syncReadme E true shown lang r = (some u, r') ↔ ReadmesOf E r.files shown lang ∧ r' = r := by
  simp only [syncReadme, script_bind, script_need, script_read, file_check, ReadmesOf]
  constructor
  · rintro ⟨root, _, ⟨h1, rfl⟩, common, _, ⟨h2, rfl⟩, github, _, ⟨h3, rfl⟩, front, _, ⟨h4, rfl⟩,
      _, _, ⟨h5, rfl⟩, _, _, ⟨h6, rfl⟩, sub, _, ⟨h7, rfl⟩, back, _, ⟨h8, rfl⟩, _, _, ⟨h9, rfl⟩, h10, rfl⟩
    exact ⟨⟨root, common, github, front, sub, back, h1, h3, h7, h2, h4, h8, h5, h6, h9, h10⟩, rfl⟩
  · rintro ⟨⟨root, common, github, front, sub, back, h1, h3, h7, h2, h4, h8, h5, h6, h9, h10⟩, rfl⟩
    exact ⟨root, _, ⟨h1, rfl⟩, common, _, ⟨h2, rfl⟩, github, _, ⟨h3, rfl⟩, front, _, ⟨h4, rfl⟩,
      (), _, ⟨h5, rfl⟩, (), _, ⟨h6, rfl⟩, sub, _, ⟨h7, rfl⟩, back, _, ⟨h8, rfl⟩, (), _, ⟨h9, rfl⟩, h10, rfl⟩

theorem shown_iff (E : SyncEnv) (mode : SyncMode) (version shown : String) (r r' : Repo) :
    shownVersion E mode version r = (some shown, r') ↔ Shows E mode version shown ∧ r' = r := by
  cases mode <;> simp [shownVersion, script_need, script_pure, Shows, published_iff]

theorem sort_check (E : SyncEnv) (u : Unit) (r r' : Repo) :
    cargoSort E true r = (some u, r') ↔ E.sorted r.files = true ∧ r' = r := by
  cases h : E.sorted r.files <;> simp [cargoSort, h, eq_comm]

/-- **C84**: with `--check` the script changes nothing, and it succeeds exactly if the repository is
in order. -/
theorem C84_check (E : SyncEnv) (mode : SyncMode) (r : Repo) :
    (syncMain E true mode r).2 = r ∧
    ((syncMain E true mode r).1 = some () ↔ ∃ version, InSync E mode version r.files) := by
  refine ⟨quiet_main E mode r, ?_⟩
  have hq := quiet_main E mode r
  have : (syncMain E true mode r).1 = some () ↔ syncMain E true mode r = (some (), r) := by
    constructor
    · intro h; rw [← h]; exact Prod.ext rfl hq
    · intro h; rw [h]
  rw [this]
  simp only [syncMain, script_bind, versions_check, shown_iff, sort_check, readme_check, InSync]
  constructor
  · rintro ⟨version, _, ⟨⟨h1, h2⟩, rfl⟩, shown, _, ⟨h3, rfl⟩, _, _, ⟨h4, rfl⟩, _, _, ⟨h5, rfl⟩, _, _, ⟨h6, rfl⟩, _⟩
    refine ⟨version, h1, h2, h4, shown, h3, fun lang hl => ?_⟩
    simp only [List.mem_cons, List.not_mem_nil, or_false] at hl
    rcases hl with rfl | rfl
    · exact h5
    · exact h6
  · rintro ⟨version, h1, h2, h4, shown, h3, h⟩
    refine ⟨version, r, ⟨⟨h1, h2⟩, rfl⟩, shown, r, ⟨h3, rfl⟩, (), r, ⟨h4, rfl⟩, (), r, ⟨h _ (by simp), rfl⟩,
      (), r, ⟨h _ (by simp), rfl⟩, ?_⟩
    rw [if_neg (by simp)]; rfl

/-! ## Writing -/

/-- Only the listed files change. -/
def Keeps (ps : List String) (r r' : Repo) : Prop :=
  r'.tags = r.tags ∧ ∀ p, p ∉ ps → r'.files p = r.files p

theorem entry_write {version krate : String} {c d : TomlVal} {r r' : Repo}
    (h : syncEntry false version krate c r = (some d, r')) :
    c.assign version ["dependencies", krate, "version"] = some d ∧ r' = r := by
  simp only [syncEntry, Bool.false_eq_true, if_false, script_bind, script_need] at h
  obtain ⟨_, _, ⟨_, rfl⟩, h1, rfl⟩ := h
  exact ⟨h1, rfl⟩

theorem versions_write {E : SyncEnv} (hE : E.Sound) {version : String} {r r' : Repo}
    (h : syncVersions E false r = (some version, r')) :
    StandsIn E r'.files "./Cargo.toml" ["workspace", "package", "version"] version ∧
    (∀ krate ∈ ["hooq-macros", "hooq-helpers"],
      StandsIn E r'.files "./hooq/Cargo.toml" ["dependencies", krate, "version"] version) ∧
    Keeps ["./hooq/Cargo.toml"] r r' := by
  simp only [syncVersions, Bool.false_eq_true, if_false, script_bind, script_need, script_read, script_pure,
    script_write] at h
  obtain ⟨w, _, ⟨h1, rfl⟩, wv, _, ⟨h2, rfl⟩, v, _, ⟨h3, rfl⟩, s, _, ⟨h4, rfl⟩, c, _, ⟨h5, rfl⟩,
      cv, _, ⟨h6, rfl⟩, d, _, h7, e, _, h8, t, _, ⟨h9, rfl⟩, _, _, rfl, rfl, rfl⟩ := h
  obtain ⟨g1, rfl⟩ := entry_write h7
  obtain ⟨g2, rfl⟩ := entry_write h8
  refine ⟨⟨w, wv, h1, h2, (stands_iff _ _ _).2 ⟨v, h3, h4⟩⟩, fun krate hk => ?_, rfl, fun p hp => ?_⟩
  · refine ⟨t, e, by simp, hE.parse_print e t h9, ?_⟩
    simp only [List.mem_cons, List.not_mem_nil, or_false] at hk
    rcases hk with rfl | rfl
    · exact assign_other g2 (by decide) (by decide) (assign_stands g1)
    · exact assign_stands g2
  · exact if_neg (by simpa using hp)

/-- The README files of one language. -/
def readmePaths (lang : String) : List String :=
  ["./docs" ++ lang ++ "/README.md", "./hooq/docs" ++ lang ++ "/README.md",
    "./hooq-macros/docs" ++ lang ++ "/README.md", "./hooq-helpers/docs" ++ lang ++ "/README.md"]

theorem readme_write {E : SyncEnv} {shown lang : String} {r r' : Repo} (hl : lang ∈ ["", "/ja"])
    (h : syncReadme E false shown lang r = (some (), r')) :
    ReadmesOf E r'.files shown lang ∧ Keeps (readmePaths lang) r r' := by
  simp only [syncReadme, syncFile, Bool.false_eq_true, if_false, script_bind, script_need, script_read,
    script_write] at h
  obtain ⟨root, _, ⟨h1, rfl⟩, common, _, ⟨h2, rfl⟩, github, _, ⟨h3, rfl⟩, front, _, ⟨h4, rfl⟩,
    _, _, rfl, _, _, rfl, sub, _, ⟨h7, rfl⟩, back, _, ⟨h8, rfl⟩, _, _, rfl, rfl⟩ := h
  refine ⟨⟨root, common, github, front, sub, back, ?_⟩, rfl, fun p hp => ?_⟩
  · simp only [List.mem_cons, List.not_mem_nil, or_false] at hl
    rcases hl with rfl | rfl
    · refine ⟨?_, ?_, ?_, h2, h4, h8, ?_, ?_, ?_, ?_⟩ <;> simp_all
    · refine ⟨?_, ?_, ?_, h2, h4, h8, ?_, ?_, ?_, ?_⟩ <;> simp_all
  · simp only [readmePaths, List.mem_cons, List.not_mem_nil, or_false, not_or] at hp
    obtain ⟨g1, g2, g3, g4⟩ := hp
    simp only [if_neg g1, if_neg g2, if_neg g3, if_neg g4]

theorem sort_write {E : SyncEnv} {u : Unit} {r r' : Repo} (h : cargoSort E false r = (some u, r')) :
    E.sort r.files = (true, r'.files) ∧ r'.tags = r.tags := by
  simp only [cargoSort, Bool.false_eq_true, if_false, Prod.mk.injEq] at h
  obtain ⟨h1, rfl⟩ := h
  refine ⟨Prod.ext ?_ rfl, rfl⟩
  cases h2 : (E.sort r.files).1
  · rw [h2] at h1; simp at h1
  · rfl

theorem tag_write {E : SyncEnv} {version : String} {u : Unit} {r r' : Repo} (h : gitTag E version r = (some u, r')) :
    r'.files = r.files ∧ r'.tags = ("v" ++ version) :: r.tags ∧ "v" ++ version ∉ r.tags := by
  simp only [gitTag] at h
  split at h
  · rename_i hc
    simp only [Prod.mk.injEq] at h
    obtain ⟨_, rfl⟩ := h
    simp only [Bool.and_eq_true, Bool.not_eq_true', List.contains_eq_mem, decide_eq_false_iff_not] at hc
    exact ⟨rfl, rfl, hc.2⟩
  · simp at h

instance (p : String) : Decidable (Manifest p) := inferInstanceAs (Decidable (_ <:+ _))

theorem readmePaths_no_manifest {lang p : String} (hl : lang ∈ ["", "/ja"]) (hp : p ∈ readmePaths lang) :
    ¬ Manifest p := by
  simp only [List.mem_cons, List.not_mem_nil, or_false] at hl
  rcases hl with rfl | rfl <;>
    · simp only [readmePaths, List.mem_cons, List.not_mem_nil, or_false] at hp
      rcases hp with rfl | rfl | rfl | rfl <;> decide

theorem ReadmesOf.keep {E : SyncEnv} {fs fs' : Files} {shown lang : String}
    (h : ∀ p, p ∈ ["./docs" ++ lang ++ "/_readme_root.md.template", "./docs/_readme_github.md.template",
      "./docs/_readme_sub_crates.md.template"] ++ readmePaths lang → fs' p = fs p)
    (h1 : ReadmesOf E fs shown lang) : ReadmesOf E fs' shown lang := by
  obtain ⟨root, common, github, front, sub, back, g1, g2, g3, g4, g5, g6, g7, g8, g9, g10⟩ := h1
  refine ⟨root, common, github, front, sub, back, ?_, ?_, ?_, g4, g5, g6, ?_, ?_, ?_, ?_⟩ <;>
    rw [h _ (by simp [readmePaths])] <;> assumption

theorem StandsIn.keep {E : SyncEnv} {fs fs' : Files} {p : String} {ks : List String} {s : String}
    (h : fs' p = fs p) (h1 : StandsIn E fs p ks s) : StandsIn E fs' p ks s := by
  obtain ⟨t, v, g1, g2, g3⟩ := h1
  exact ⟨t, v, h.trans g1, g2, g3⟩

/-- **C84**: a successful run without `--check` leaves the repository in order, with the version of the
workspace before the run; it changes nothing but manifests and the README files; in mode `add-tag` it
adds the tag of the version, which did not exist, and in the other modes no tag. -/
theorem C84_sync (E : SyncEnv) (hE : E.Sound) (mode : SyncMode) (r r' : Repo)
    (h : syncMain E false mode r = (some (), r')) :
    ∃ version, StandsIn E r.files "./Cargo.toml" ["workspace", "package", "version"] version ∧
      InSync E mode version r'.files ∧
      (∀ p, ¬ Manifest p → p ∉ readmePaths "" → p ∉ readmePaths "/ja" → r'.files p = r.files p) ∧
      r'.tags = (if mode = .addTag then ["v" ++ version] else []) ++ r.tags ∧
      (mode = .addTag → "v" ++ version ∉ r.tags) := by
  simp only [syncMain, script_bind, shown_iff] at h
  obtain ⟨version, r1, h1, shown, _, ⟨h2, rfl⟩, _, r2, h3, _, r3, h4, _, r4, h5, h6⟩ := h
  obtain ⟨a1, a2, a3, a4⟩ := versions_write hE h1
  obtain ⟨b1, b2⟩ := sort_write h3
  obtain ⟨c1, c2, c3⟩ := readme_write (by simp) h4
  obtain ⟨d1, d2, d3⟩ := readme_write (by simp) h5
  have e : r'.files = r4.files ∧ r'.tags = (if mode = .addTag then ["v" ++ version] else []) ++ r4.tags ∧
      (mode = .addTag → "v" ++ version ∉ r4.tags) := by
    split at h6
    · rename_i hm
      obtain ⟨g1, g2, g3⟩ := tag_write h6
      exact ⟨g1, by rw [if_pos hm.1, g2]; rfl, fun _ => g3⟩
    · rename_i hm
      obtain ⟨_, rfl⟩ := (script_pure _ _ _ _).1 h6
      have : mode ≠ .addTag := fun h => hm ⟨h, trivial⟩
      exact ⟨rfl, by rw [if_neg this]; rfl, fun h => absurd h this⟩
  obtain ⟨e1, e2, e3⟩ := e
  have tags : r4.tags = r.tags := by rw [d2, c2, b2, a3]
  have man : ∀ p, Manifest p → r'.files p = r2.files p := by
    intro p hp
    rw [e1, d3 p fun h => readmePaths_no_manifest (by simp) h hp,
      c3 p fun h => readmePaths_no_manifest (by simp) h hp]
  have keep0 : StandsIn E r.files "./Cargo.toml" ["workspace", "package", "version"] version := by
    refine StandsIn.keep ?_ a1
    rw [a4 _ (by decide)]
  refine ⟨version, keep0, ⟨?_, ?_, ?_, shown, h2, ?_⟩, ?_, ?_, ?_⟩
  · exact (hE.sort_keeps _ _ _ _ _ b1 a1).keep (man _ (by decide))
  · exact fun krate hk => (hE.sort_keeps _ _ _ _ _ b1 (a2 krate hk)).keep (man _ (by decide))
  · rw [hE.sorted_manifests _ _ man]; exact hE.sort_sorts _ _ b1
  · intro lang hl
    simp only [List.mem_cons, List.not_mem_nil, or_false] at hl
    rcases hl with rfl | rfl
    · refine c1.keep fun p hp => ?_
      rw [e1, d3]
      intro h
      revert p
      decide
    · rw [e1]; exact d1
  · intro p hp h1 h2
    have hn : p ∉ ["./hooq/Cargo.toml"] := by
      simp only [List.mem_cons, List.not_mem_nil, or_false]
      rintro rfl
      exact hp (by decide)
    rw [e1, d3 p h2, c3 p h1, hE.sort_else _ _ p b1 hp, a4 p hn]
  · rw [e2, tags]
  · rw [tags] at e3; exact e3

/-! ## When a run succeeds -/

theorem has_iff (ks : List String) (v : TomlVal) : Has ks v ↔ ∃ e, v.lookup ks = some e := by
  induction ks generalizing v with
  | nil => exact ⟨fun _ => ⟨v, rfl⟩, fun _ => .here⟩
  | cons k ks ih =>
    constructor
    · intro h
      cases h with
      | under h1 h2 =>
        simp only [TomlVal.lookup, (find_get _ _ _).1 h1, Option.bind_some]
        exact (ih _).1 h2
    · rintro ⟨e, h1⟩
      cases v with
      | table l =>
        simp only [TomlVal.lookup, Option.bind_eq_some_iff] at h1
        obtain ⟨v, h3, h4⟩ := h1
        exact .under ((find_get _ _ _).2 h3) ((ih v).2 ⟨e, h4⟩)
      | _ => simp [TomlVal.lookup] at h1

theorem has_assign (s : String) (ks : List String) (v : TomlVal) : Has ks v ↔ ∃ w, v.assign s ks = some w := by
  induction ks generalizing v with
  | nil => exact ⟨fun _ => ⟨_, rfl⟩, fun _ => .here⟩
  | cons k ks ih =>
    constructor
    · intro h
      cases h with
      | under h1 h2 =>
        obtain ⟨w, hw⟩ := (ih _).1 h2
        simp only [TomlVal.assign, (find_get _ _ _).1 h1, Option.bind_some, hw, Option.map_some]
        exact ⟨_, rfl⟩
    · rintro ⟨e, h1⟩
      cases v with
      | table l =>
        simp only [TomlVal.assign, Option.bind_eq_some_iff, Option.map_eq_some_iff] at h1
        obtain ⟨v, h3, w, h4, _⟩ := h1
        exact .under ((find_get _ _ _).2 h3) ((ih v).2 ⟨w, h4⟩)
      | _ => simp [TomlVal.assign] at h1

/-- An assignment neither adds nor removes an entry that is not below the assigned one. -/
theorem has_other {s : String} {ks js : List String} {v w : TomlVal} (h : v.assign s ks = some w)
    (h1 : ¬ ks <+: js) : Has js w ↔ Has js v := by
  induction ks generalizing v w js with
  | nil => exact absurd (List.nil_prefix) h1
  | cons k ks ih =>
    cases v with
    | table l =>
      simp only [TomlVal.assign, Option.bind_eq_some_iff, Option.map_eq_some_iff] at h
      obtain ⟨a, g1, b, g2, rfl⟩ := h
      cases js with
      | nil => exact ⟨fun _ => .here, fun _ => .here⟩
      | cons j js =>
        have hu : ∀ m : AMap TomlVal, Has (j :: js) (.table m) ↔ ∃ u, m.get? j = some u ∧ Has js u := by
          intro m
          constructor
          · intro h; cases h with | under g3 g4 => exact ⟨_, (find_get _ _ _).1 g3, g4⟩
          · rintro ⟨u, g3, g4⟩; exact .under ((find_get _ _ _).2 g3) g4
        rw [hu, hu, AMap.get?_insert]
        by_cases hk : k = j
        · subst hk
          rw [if_pos rfl, g1]
          have := ih (js := js) g2 (fun h => h1 (List.cons_prefix_cons.2 ⟨rfl, h⟩))
          simp only [Option.some.injEq, exists_eq_left', this]
        · rw [if_neg hk]
    | _ => simp [TomlVal.assign] at h

theorem entry_runs (version krate : String) (c d : TomlVal) (r r' : Repo) :
    syncEntry false version krate c r = (some d, r') ↔
      c.assign version ["dependencies", krate, "version"] = some d ∧ r' = r := by
  refine ⟨entry_write, ?_⟩
  rintro ⟨h, rfl⟩
  obtain ⟨e, he⟩ := (has_iff _ _).1 ((has_assign version _ _).2 ⟨d, h⟩)
  simp only [syncEntry, Bool.false_eq_true, if_false, script_bind, script_need]
  exact ⟨e, _, ⟨he, rfl⟩, h, rfl⟩

theorem versions_runs (E : SyncEnv) (version : String) (r r' : Repo) :
    syncVersions E false r = (some version, r') ↔
      StandsIn E r.files "./Cargo.toml" ["workspace", "package", "version"] version ∧
      ∃ t v d e t', r.files "./hooq/Cargo.toml" = some t ∧ E.parse t = some v ∧
        v.assign version ["dependencies", "hooq-macros", "version"] = some d ∧
        d.assign version ["dependencies", "hooq-helpers", "version"] = some e ∧ E.print e = some t' ∧
        r' = { r with files := fun q => if q = "./hooq/Cargo.toml" then some t' else r.files q } := by
  simp only [syncVersions, Bool.false_eq_true, if_false, script_bind, script_need, script_read, script_pure,
    script_write, entry_runs]
  constructor
  · rintro ⟨w, _, ⟨h1, rfl⟩, wv, _, ⟨h2, rfl⟩, v, _, ⟨h3, rfl⟩, s, _, ⟨h4, rfl⟩, c, _, ⟨h5, rfl⟩,
      cv, _, ⟨h6, rfl⟩, d, _, ⟨h7, rfl⟩, e, _, ⟨h8, rfl⟩, t, _, ⟨h9, rfl⟩, _, _, rfl, rfl, rfl⟩
    exact ⟨⟨w, wv, h1, h2, (stands_iff _ _ _).2 ⟨v, h3, h4⟩⟩, c, cv, d, e, t, h5, h6, h7, h8, h9, rfl⟩
  · rintro ⟨⟨w, wv, h1, h2, h3⟩, c, cv, d, e, t, h5, h6, h7, h8, h9, rfl⟩
    obtain ⟨v, h3, h4⟩ := (stands_iff _ _ _).1 h3
    exact ⟨w, _, ⟨h1, rfl⟩, wv, _, ⟨h2, rfl⟩, v, _, ⟨h3, rfl⟩, version, _, ⟨h4, rfl⟩, c, _, ⟨h5, rfl⟩,
      cv, _, ⟨h6, rfl⟩, d, _, ⟨h7, rfl⟩, e, _, ⟨h8, rfl⟩, t, _, ⟨h9, rfl⟩, (), _, rfl, rfl, rfl⟩

theorem readme_runs (E : SyncEnv) (shown lang : String) (hl : lang ∈ ["", "/ja"]) (r : Repo) :
    (∃ r', syncReadme E false shown lang r = (some (), r')) ↔ Fills E r.files shown lang := by
  have hsub : ∀ q ∈ readmePaths lang, "./docs/_readme_sub_crates.md.template" ≠ q := by
    simp only [List.mem_cons, List.not_mem_nil, or_false] at hl
    rcases hl with rfl | rfl <;> decide
  simp only [readmePaths, List.mem_cons, List.not_mem_nil, or_false, forall_eq_or_imp, forall_eq] at hsub
  obtain ⟨n1, n2, _, _⟩ := hsub
  simp only [syncReadme, syncFile, Bool.false_eq_true, if_false, script_bind, script_need, script_read,
    script_write, Fills]
  generalize "./docs" ++ lang ++ "/README.md" = p1 at *
  generalize "./hooq/docs" ++ lang ++ "/README.md" = p2 at *
  generalize "./docs/_readme_sub_crates.md.template" = p3 at *
  constructor
  · rintro ⟨r', root, _, ⟨h1, rfl⟩, common, _, ⟨h2, rfl⟩, github, _, ⟨h3, rfl⟩, front, _, ⟨h4, rfl⟩,
      _, _, rfl, _, _, rfl, sub, _, ⟨h7, rfl⟩, back, _, ⟨h8, rfl⟩, _, _, rfl, rfl⟩
    simp only [if_neg n1, if_neg n2] at h7
    exact ⟨root, common, github, sub, h1, h3, h7, h2, ⟨front, h4⟩, back, h8⟩
  · rintro ⟨root, common, github, sub, h1, h3, h7, h2, ⟨front, h4⟩, back, h8⟩
    refine ⟨_, root, _, ⟨h1, rfl⟩, common, _, ⟨h2, rfl⟩, github, _, ⟨h3, rfl⟩, front, _, ⟨h4, rfl⟩,
      (), _, rfl, (), _, rfl, sub, _, ⟨?_, rfl⟩, back, _, ⟨h8, rfl⟩, (), _, rfl, rfl⟩
    simp only [if_neg n1, if_neg n2]
    exact h7

/-- The templates of one language. -/
def templatePaths (lang : String) : List String :=
  ["./docs" ++ lang ++ "/_readme_root.md.template", "./docs/_readme_github.md.template",
    "./docs/_readme_sub_crates.md.template"]

theorem Fills.keep {E : SyncEnv} {fs fs' : Files} {shown lang : String}
    (h : ∀ p ∈ templatePaths lang, fs' p = fs p) : Fills E fs' shown lang ↔ Fills E fs shown lang := by
  simp only [templatePaths, List.mem_cons, List.not_mem_nil, or_false, forall_eq_or_imp, forall_eq] at h
  obtain ⟨h1, h2, h3⟩ := h
  simp only [Fills, h1, h2, h3]

theorem tag_runs (E : SyncEnv) (version : String) (r : Repo) :
    (∃ r', gitTag E version r = (some (), r')) ↔ E.tagName ("v" ++ version) = true ∧ "v" ++ version ∉ r.tags := by
  by_cases h : (E.tagName ("v" ++ version) && !r.tags.contains ("v" ++ version)) = true
  · simp only [gitTag, if_pos h]
    simp only [Bool.and_eq_true, Bool.not_eq_true', List.contains_eq_mem, decide_eq_false_iff_not] at h
    exact ⟨fun _ => h, fun _ => ⟨_, rfl⟩⟩
  · simp only [gitTag, if_neg h]
    simp only [Bool.and_eq_true, Bool.not_eq_true', List.contains_eq_mem, decide_eq_false_iff_not] at h
    exact ⟨fun ⟨_, h'⟩ => (by simp at h'), fun h' => absurd h' h⟩

/-- **C84**: if manifests can be printed with other versions and `cargo sort` does not fail, a run without `--check` succeeds exactly if the
version, both dependencies, the templates and, for a tag, a free name are there. -/
theorem C84_runs (E : SyncEnv) (hE : E.Sound) (hp : ∀ t v d e a, E.parse t = some v →
      v.assign a ["dependencies", "hooq-macros", "version"] = some d →
      d.assign a ["dependencies", "hooq-helpers", "version"] = some e → ∃ t', E.print e = some t')
    (hs : ∀ fs, (E.sort fs).1 = true) (mode : SyncMode) (r : Repo) :
    (syncMain E false mode r).1 = some () ↔ ∃ version, Ready E mode version r := by
  have run : (syncMain E false mode r).1 = some () ↔ ∃ r', syncMain E false mode r = (some (), r') :=
    ⟨fun h => ⟨_, Prod.ext h rfl⟩, fun ⟨_, h⟩ => by rw [h]⟩
  have hsort : ∀ r, cargoSort E false r = (some (), { r with files := (E.sort r.files).2 }) := by
    intro r
    simp only [cargoSort, Bool.false_eq_true, if_false, hs r.files, if_true]
  have hkeep : ∀ (fs : Files) (p : String), ¬ Manifest p → (E.sort fs).2 p = fs p :=
    fun fs p h => hE.sort_else fs _ p (Prod.ext (hs fs) rfl) h
  have htmp : ∀ lang ∈ ["", "/ja"], ∀ p ∈ templatePaths lang, ¬ Manifest p ∧ p ≠ "./hooq/Cargo.toml" ∧
      p ∉ readmePaths "" := by
    intro lang hl
    simp only [List.mem_cons, List.not_mem_nil, or_false] at hl
    rcases hl with rfl | rfl <;> decide
  rw [run]
  simp only [syncMain, script_bind, shown_iff, versions_runs, hsort, Ready]
  constructor
  · rintro ⟨r', version, r1, ⟨h1, t, v, d, e, t', h2, h3, h4, h5, h6, rfl⟩, shown, _, ⟨h7, rfl⟩, _, r2, h8,
      _, r3, h9, _, r4, h10, h11⟩
    simp only [Prod.mk.injEq, true_and] at h8
    subst h8
    have f1 := (readme_runs E shown "" (by simp) _).1 ⟨_, h9⟩
    have f2 := (readme_runs E shown "/ja" (by simp) _).1 ⟨_, h10⟩
    obtain ⟨_, c2, c3⟩ := readme_write (by simp) h9
    obtain ⟨_, d2, d3⟩ := readme_write (by simp) h10
    refine ⟨version, h1, ⟨t, v, h2, h3, fun krate hk => ?_⟩, ⟨shown, h7, fun lang hl => ?_⟩, fun hm => ?_⟩
    · simp only [List.mem_cons, List.not_mem_nil, or_false] at hk
      rcases hk with rfl | rfl
      · exact (has_assign version _ _).2 ⟨d, h4⟩
      · exact (has_other h4 (by decide)).1 ((has_assign version _ _).2 ⟨e, h5⟩)
    · simp only [List.mem_cons, List.not_mem_nil, or_false] at hl
      rcases hl with rfl | rfl
      · refine (Fills.keep fun p hp => ?_).1 f1
        obtain ⟨g1, g2, _⟩ := htmp "" (by simp) p hp
        simp only [hkeep _ p g1, if_neg g2]
      · refine (Fills.keep fun p hp => ?_).1 f2
        obtain ⟨g1, g2, g3⟩ := htmp "/ja" (by simp) p hp
        rw [c3 p g3]
        simp only [hkeep _ p g1, if_neg g2]
    · rw [if_pos ⟨hm, trivial⟩] at h11
      have := (tag_runs E version r4).1 ⟨_, h11⟩
      rw [d2, c2] at this
      exact this
  · rintro ⟨version, h1, ⟨t, v, h2, h3, h4⟩, ⟨shown, h7, h8⟩, h9⟩
    obtain ⟨d, h5⟩ := (has_assign version _ _).1 (h4 "hooq-macros" (by simp))
    obtain ⟨e, h6⟩ := (has_assign version _ _).1 ((has_other h5 (by decide)).2 (h4 "hooq-helpers" (by simp)))
    obtain ⟨t', ht⟩ := hp t v d e version h3 h5 h6
    have f1 : Fills E (E.sort fun q => if q = "./hooq/Cargo.toml" then some t' else r.files q).2 shown "" := by
      refine (Fills.keep fun p hp => ?_).2 (h8 "" (by simp))
      obtain ⟨g1, g2, _⟩ := htmp "" (by simp) p hp
      simp only [hkeep _ p g1, if_neg g2]
    obtain ⟨r3, g3⟩ := (readme_runs E shown "" (by simp)
      ⟨(E.sort fun q => if q = "./hooq/Cargo.toml" then some t' else r.files q).2, r.tags⟩).2 f1
    obtain ⟨_, c2, c3⟩ := readme_write (by simp) g3
    have f2 : Fills E r3.files shown "/ja" := by
      refine (Fills.keep fun p hp => ?_).2 (h8 "/ja" (by simp))
      obtain ⟨g1, g2, g4⟩ := htmp "/ja" (by simp) p hp
      rw [c3 p g4]
      simp only [hkeep _ p g1, if_neg g2]
    obtain ⟨r4, g4⟩ := (readme_runs E shown "/ja" (by simp) r3).2 f2
    obtain ⟨_, d2, _⟩ := readme_write (by simp) g4
    have last : ∃ r', (if mode = .addTag ∧ True then gitTag E version else pure () : Script Unit) r4 =
        (some (), r') := by
      by_cases hm : mode = .addTag
      · rw [if_pos ⟨hm, trivial⟩]
        refine (tag_runs E version r4).2 ?_
        rw [d2, c2]; exact h9 hm
      · rw [if_neg fun h => hm h.1]; exact ⟨_, rfl⟩
    obtain ⟨r', g5⟩ := last
    exact ⟨r', version, _, ⟨h1, t, v, d, e, t', h2, h3, h5, h6, ht, rfl⟩, shown, _, ⟨h7, rfl⟩, (), _, rfl,
      (), _, g3, (), _, g4, g5⟩

/-- **C84**: after a successful run the check succeeds. -/
theorem C84_settled (E : SyncEnv) (hE : E.Sound) (mode : SyncMode) (r r' : Repo)
    (h : syncMain E false mode r = (some (), r')) : syncMain E true mode r' = (some (), r') := by
  obtain ⟨version, _, h1, _⟩ := C84_sync E hE mode r r' h
  have h2 := C84_check E mode r'
  exact Prod.ext (h2.2.2 ⟨version, h1⟩) h2.1

namespace SyncEx

/-- The table of the workspace manifest. -/
def top (v : String) : TomlVal := .table [("workspace", .table [("package", .table [("version", .str v)])])]

/-- The table of the manifest of the crate. -/
def deps (a b : String) : TomlVal :=
  .table [("dependencies", .table [("hooq-macros", .table [("version", .str a)]),
    ("hooq-helpers", .table [("version", .str b)])])]

/-- A language for manifests of these forms. -/
def parse (s : String) : Option TomlVal :=
  match s.toList with
  | 'W' :: l => some (top (String.ofList l))
  | 'D' :: l => some (deps (String.ofList l) (String.ofList l))
  | _ => none

/-- Its printer. -/
def print : TomlVal → Option String
  | .table [(k, .table [(k1, .table [(k2, .str a)]), (k3, .table [(k4, .str b)])])] =>
    if k = "dependencies" ∧ k1 = "hooq-macros" ∧ k2 = "version" ∧ k3 = "hooq-helpers" ∧ k4 = "version" ∧ a = b then
      some (String.ofList ('D' :: a.toList))
    else none
  | _ => none

/-- The tools. -/
def env : SyncEnv where
  parse := parse
  print := print
  render t l := some (l.foldl (fun t e => t ++ "+" ++ e.2) t)
  versions := some [⟨"0.9", false, some 1⟩, ⟨"1.0", false, some 7⟩, ⟨"1.1", true, some 8⟩, ⟨"0.9.1", false, some 3⟩]
  sort fs := (true, fs)
  sorted _ := true
  tagName _ := true

/-- The files before a release. -/
def files : Files := fun p =>
  if p = "./Cargo.toml" then some "W1.1"
  else if p = "./hooq/Cargo.toml" then some "D1.0"
  else if p = "./docs/_readme_root.md.template" ∨ p = "./docs/ja/_readme_root.md.template" then some "hooq"
  else if p = "./docs/_readme_github.md.template" then some "github"
  else if p = "./docs/_readme_sub_crates.md.template" then some "crates"
  else none

theorem sound : env.Sound where
  parse_print v t h := by
    simp only [env, print] at h
    split at h
    · split at h
      · rename_i hc
        obtain ⟨rfl, rfl, rfl, rfl, rfl, rfl⟩ := hc
        cases h
        simp [env, parse, deps]
      · cases h
    · cases h
  sort_sorts _ _ _ := rfl
  sort_else fs fs' p h _ := by cases h; rfl
  sort_keeps fs fs' p ks s h h1 := by cases h; exact h1
  sorted_manifests _ _ _ := rfl

theorem printable (t : String) (v d e : TomlVal) (a : String) (h : env.parse t = some v)
    (h1 : v.assign a ["dependencies", "hooq-macros", "version"] = some d)
    (h2 : d.assign a ["dependencies", "hooq-helpers", "version"] = some e) : ∃ t', env.print e = some t' := by
  simp only [env, parse] at h
  split at h
  · cases h; simp [top, TomlVal.assign, AMap.get?] at h1
  · cases h
    simp [deps, TomlVal.assign, AMap.get?, AMap.insert] at h1
    subst h1
    simp [TomlVal.assign, AMap.get?, AMap.insert] at h2
    subst h2
    exact ⟨String.ofList ('D' :: a.toList), by simp [env, print]⟩
  · cases h

/-- The repository is not in order: the crate depends on the old versions. -/
example : (syncMain env true .publish ⟨files, []⟩).1 = none := by decide +kernel

/-- It is ready, hence a run succeeds, and the check after it. -/
example : (syncMain env false .addTag ⟨files, ["v1.0"]⟩).1 = some () :=
  (C84_runs env sound printable (fun _ => rfl) .addTag _).2 ⟨"1.1",
    ⟨"W1.1", _, rfl, rfl, .under rfl (.under rfl (.under rfl .here))⟩,
    ⟨"D1.0", _, rfl, rfl, by
      intro krate hk
      simp only [List.mem_cons, List.not_mem_nil, or_false] at hk
      rcases hk with rfl | rfl <;> exact .under rfl (.under rfl (.under rfl .here))⟩,
    ⟨"1.1", rfl, by
      intro lang hl
      simp only [List.mem_cons, List.not_mem_nil, or_false] at hl
      rcases hl with rfl | rfl <;> exact ⟨_, _, _, _, rfl, rfl, rfl, rfl, ⟨_, rfl⟩, _, rfl⟩⟩,
    fun _ => ⟨rfl, by decide⟩⟩

example : (syncMain env false .addTag ⟨files, ["v1.0"]⟩).2.tags = ["v1.1", "v1.0"] ∧
    (syncMain env false .addTag ⟨files, ["v1.0"]⟩).2.files "./hooq/docs/ja/README.md" = some "hooq+1.1" ∧
    (syncMain env false .wip ⟨files, ["v1.0"]⟩).2.files "./hooq/docs/ja/README.md" = some "hooq+1.0" ∧
    (syncMain env false .wip ⟨files, ["v1.0"]⟩).2.files "./hooq/Cargo.toml" = some "D1.1" := by decide +kernel

/-- The newest version that was not withdrawn. -/
example : Newest env "1.0" :=
  ⟨[⟨"0.9", false, some 1⟩], [⟨"1.1", true, some 8⟩, ⟨"0.9.1", false, some 3⟩], 7, rfl,
    by simp, by simp⟩

/-- A failed run may leave changes: without the answer of crates.io the manifest has been written
already. -/
example : (syncMain { env with versions := none } false .wip ⟨files, []⟩).1 = none ∧
    (syncMain { env with versions := none } false .wip ⟨files, []⟩).2.files "./hooq/Cargo.toml" = some "D1.1" := by
  decide +kernel

end SyncEx

end Hooq
