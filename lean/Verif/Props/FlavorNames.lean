import Verif.Props.FlavorSpelling
import Verif.Props.TomlExact
import Verif.Props.Presets

/-! # C82: which flavors can be used at all -/

namespace Hooq

/-- C82, names.  Some string names the flavor path exactly if no name in it is empty or
contains a separator. -/
theorem C82_named (q : List String) :
    (∃ s, flavorPathOfString s = .ok q) ↔ q ≠ [] ∧ ∀ n ∈ q, NameOk n.toList := by
  constructor
  · rintro ⟨s, h⟩
    have h := (C65_string s q).1 h
    refine ⟨fun hq => spelled_some h (by simp [hq]), ?_⟩
    have key : ∀ {t : List Char} {l : List (List Char)}, SpelledAs t l → ∀ c ∈ l, NameOk c := by
      intro t l h
      induction h with
      | last h => intro c hc; obtain rfl := List.mem_singleton.1 hc; exact h
      | dot h _ ih => intro c hc; rcases List.mem_cons.1 hc with rfl | hc; exacts [h, ih c hc]
      | colons h _ _ ih => intro c hc; rcases List.mem_cons.1 hc with rfl | hc; exacts [h, ih c hc]
    exact fun n hn => key h _ (List.mem_map_of_mem hn)
  · rintro ⟨hq, h⟩
    have key : ∀ q : List String, q ≠ [] → (∀ n ∈ q, NameOk n.toList) →
        ∃ t, SpelledAs t (q.map String.toList) := by
      intro q
      induction q with
      | nil => exact fun h => absurd rfl h
      | cons x q ih =>
        intro _ h
        by_cases hq : q = []
        · subst hq
          exact ⟨_, .last (h x (by simp))⟩
        · obtain ⟨t, ht⟩ := ih hq fun n hn => h n (List.mem_cons_of_mem _ hn)
          exact ⟨_, .dot (h x (by simp)) ht⟩
    obtain ⟨t, ht⟩ := key q hq h
    exact ⟨String.ofList t, (C65_string _ _).2 (by simpa using ht)⟩

/-- C82, values.  What a string as the value of a flavor can select: the settings of the
flavors of the store whose names contain no separator, and nothing else. -/
theorem C82_selected {env : Env} {m : FlavorMap} (hm : env.store = .ok m) (hu : UniqMap m) (setting : String)
    (c : Settings) :
    (∃ s text, flavorOfValue env { view := .litStr s, text := text } setting = .ok c) ↔
      ∃ q f, Reaches m q f ∧ (∀ n ∈ q, NameOk n.toList) ∧ f.settings = c := by
  have look : ∀ q c, lookupFlavor env q = .ok c ↔ ∃ f, Reaches m q f ∧ f.settings = c := by
    intro q c
    simp only [lookupFlavor, hm]
    cases hg : getFlavor m q with
    | error names =>
      have := ((C34_lookup hu q).2).1 ⟨names, hg⟩
      simp [this]
    | ok f =>
      simp only [Except.ok.injEq]
      have hf := ((C34_lookup hu q).1 f).1 hg
      constructor
      · rintro rfl; exact ⟨f, hf, rfl⟩
      · rintro ⟨g, hg', rfl⟩; rw [hf.functional hu hg']
  constructor
  · rintro ⟨s, text, h⟩
    simp only [flavorOfValue, getFlavorPath] at h
    obtain ⟨q, h1, h2⟩ := except_bind_ok h
    have h1 : flavorPathOfString s = .ok q := by
      cases hs : flavorPathOfString s with
      | error e => rw [hs] at h1; simp [Except.mapError] at h1
      | ok q' => rw [hs] at h1; simpa [Except.mapError] using h1
    obtain ⟨f, hf, hc⟩ := (look q c).1 h2
    exact ⟨q, f, hf, ((C82_named q).1 ⟨s, h1⟩).2, hc⟩
  · rintro ⟨q, f, hf, hq, hc⟩
    obtain ⟨s, hs⟩ := (C82_named q).2 ⟨(reaches_ne hf).1, hq⟩
    refine ⟨s, "", ?_⟩
    simp only [flavorOfValue, getFlavorPath, hs, Except.mapError]
    exact (look q c).2 ⟨f, hf, hc⟩

theorem plain_nameOk {n : String} (h : PlainName n) : NameOk n.toList :=
  ⟨fun hn => h.1 (by rw [← String.ofList_toList (s := n), hn]), fun hn => (h.2 _ hn).2 rfl, fun a b hn =>
    (h.2 ':' (by rw [hn]; simp)).1 rfl⟩

/-- C82, paths.  Whatever a path can name, of which each name is an identifier, a string can
name. -/
theorem C82_path {p : Path} {q : List String} (h : flavorPathOfPath p = .ok q) (hp : p.segs ≠ [])
    (hi : ∀ g ∈ p.segs, PlainName g.ident) : ∃ s, flavorPathOfString s = .ok q := by
  obtain ⟨rfl, -⟩ := (C65_path p q).1 h
  refine (C82_named _).2 ⟨by simpa using hp, fun n hn => ?_⟩
  obtain ⟨g, hg, rfl⟩ := List.mem_map.1 hn
  exact plain_nameOk (hi g hg)

theorem get?_mem {α : Type} {m : AMap α} {k : String} {v : α} (h : AMap.get? m k = some v) : (k, v) ∈ m := by
  induction m with
  | nil => simp [AMap.get?] at h
  | cons y m ih =>
    obtain ⟨a, b⟩ := y
    simp only [AMap.get?] at h
    split at h
    · rename_i hk
      subst hk
      simp_all
    · exact List.mem_cons_of_mem _ (ih h)

/-- Above each table there are the tables of its prefixes. -/
theorem tableAt_name {q : List String} {n : String} (hn : n ∈ q) : ∀ {toml : AMap Table} {t : Table},
    tableAt toml q = some t → ∃ p u, tableAt toml p = some u ∧ p.getLast? = some n := by
  induction q with
  | nil => cases hn
  | cons x q ih =>
    intro toml t h
    obtain ⟨u, h1, h2⟩ := tableAt_sub h
    rcases List.mem_cons.1 hn with rfl | hn
    · exact ⟨[n], u, by simp [tableAt, h1, Table.descend], rfl⟩
    · rcases h2 with ⟨rfl, -⟩ | ⟨-, h2⟩
      · cases hn
      · obtain ⟨p, w, h3, h4⟩ := ih hn h2
        cases p with
        | nil => cases h3
        | cons y p =>
          exact ⟨x :: y :: p, w, by simpa [tableAt, h1, Table.descend] using h3, by rw [List.getLast?_cons_cons]; exact h4⟩

instance (n : String) : Decidable (PlainName n) := inferInstanceAs (Decidable (_ ∧ _))

theorem presetDocs_plain : ∀ doc ∈ presetDocs, ∀ n ∈ doc.path, PlainName n := by
  simp only [presetDocs, logDoc, tracingDoc, List.forall_mem_cons, List.not_mem_nil, false_imp_iff, implies_true, and_true]
  decide +kernel

/-- Each name of a flavor of a configured store is one of the flavors before or the key of
a table. -/
theorem gives_names {env : TomlEnv} {m : FlavorMap} {base : Flavor} {toml : AMap Table} {q : List String}
    {s : Settings} (h : Gives env m base toml q s) (ok : String → Prop)
    (hm : ∀ q f, Reaches m q f → ∀ n ∈ q, ok n) (hb : ∀ q f, Reaches base.subs q f → ∀ n ∈ q, ok n)
    (ht : ∀ q t, tableAt toml q = some t → ∀ n ∈ q, ok n) : ∀ n ∈ q, ok n := by
  induction h with
  | @table m base toml n t s h1 h2 =>
    intro x hx
    exact ht [n] t (by simp [tableAt, h1, Table.descend]) x hx
  | @under m base toml n t s q s' h1 h2 h3 ih =>
    have hsub : ∀ q f, Reaches ((m.get? n).getD base).subs q f → ∀ n ∈ q, ok n := by
      intro q f hr
      cases hg : m.get? n with
      | none => rw [hg] at hr; exact hb q f hr
      | some g =>
        rw [hg] at hr
        exact fun x hx => hm (n :: q) f (.sub (get?_mem hg) hr) x (List.mem_cons_of_mem _ hx)
    intro x hx
    rcases List.mem_cons.1 hx with rfl | hx
    · exact ht [x] t (by simp [tableAt, h1, Table.descend]) x (by simp)
    · refine ih hsub hsub (fun p u hp x hx => ?_) x hx
      refine ht (n :: p) u ?_ x (List.mem_cons_of_mem _ hx)
      cases p with
      | nil => cases hp
      | cons y p => simpa [tableAt, h1, Table.descend] using hp
  | @kept m base toml n q f h1 h2 => exact hm _ _ h2

/-- C82, configuration.  After an accepted file on top of the built-in flavors, every flavor
there is can be named exactly if no key of a table contains a separator.  (No key is empty
then: such files are rejected.) -/
theorem C82_configured {env : TomlEnv} {dflt : Settings} {consume : Bool} {helpers : List TT}
    (hh : NoDollars helpers) {ft : PresetFeatures} {m' : FlavorMap} {toml : AMap Table} (hu : UniqToml toml)
    (h : applyToml env dflt (presetFlavors consume helpers ft) toml = .ok m') :
    (∀ q f, Reaches m' q f → ∃ s, flavorPathOfString s = .ok q) ↔
      ∀ q t, tableAt toml q = some t → ∀ n ∈ q, '.' ∉ n.toList ∧ ∀ a b, n.toList ≠ a ++ ':' :: ':' :: b := by
  have hm := uniq_presets consume helpers ft
  have hb : (Flavor.mk dflt []).Uniq := ⟨by simp [AMap.keys], trivial⟩
  constructor
  · intro hall q t ht n hn
    obtain ⟨o, f', -, h2, -⟩ := C35_fields_partial hu hm h ht
    exact (((C82_named q).1 (hall q f' h2)).2 n hn).2
  · intro hk q f hf
    refine (C82_named q).2 ⟨(reaches_ne hf).1, ?_⟩
    refine gives_names (reaches_gives hu hm hb h hf) (fun n => NameOk n.toList) ?_ ?_ ?_
    · intro q f hr
      obtain ⟨doc, h1, rfl, -⟩ := (C58_known hh).1 ⟨f, hr⟩
      exact fun n hn => plain_nameOk (presetDocs_plain doc h1 n hn)
    · intro q f hr; cases hr <;> contradiction
    · intro q t ht n hn
      refine ⟨?_, hk q t ht n hn⟩
      intro he
      obtain ⟨p, u, h1, h2⟩ := tableAt_name hn ht
      refine (C75_accepted hu).1 ⟨m', h⟩ p u .emptyName h1 ?_
      show p.getLast? = some ""
      rw [h2, ← String.ofList_toList (s := n), he]

/-- `["a.b"]` is accepted and makes a flavor that no string names; with `["a-b"]` all
flavors can be named. -/
example : ∃ m' f, applyToml Ex.tenv (defaultSettings false []) (presetFlavors false [] ⟨true, true, false, false⟩)
      [("a.b", .mk {} [])] = .ok m' ∧ Reaches m' ["a.b"] f ∧ ∀ s, flavorPathOfString s ≠ .ok ["a.b"] := by
  have hu : UniqToml [("a.b", .mk {} [])] := by simp [UniqToml, AMap.keys, TablesUniq, Table.Uniq]
  obtain ⟨o, f', -, h2, -⟩ := C35_fields_partial (env := Ex.tenv) (dflt := defaultSettings false [])
    (m := presetFlavors false [] ⟨true, true, false, false⟩) hu (uniq_presets _ _ _) rfl (q := ["a.b"]) rfl
  refine ⟨_, f', rfl, h2, fun s hs => ?_⟩
  have := ((C82_named ["a.b"]).1 ⟨s, hs⟩).2 "a.b" (by simp)
  exact this.2.1 (by decide +kernel)

example : ∃ m', applyToml Ex.tenv (defaultSettings false []) (presetFlavors false [] ⟨true, true, false, false⟩)
      [("a-b", .mk {} [("c", .mk {} [])])] = .ok m' ∧
    ∀ q f, Reaches m' q f → ∃ s, flavorPathOfString s = .ok q := by
  have hu : UniqToml [("a-b", .mk {} [("c", .mk {} [])])] := by simp [UniqToml, AMap.keys, TablesUniq, Table.Uniq]
  refine ⟨_, rfl, (C82_configured (env := Ex.tenv) (dflt := defaultSettings false []) (consume := false)
    (helpers := []) (by simp [NoDollars]) (ft := ⟨true, true, false, false⟩) hu rfl).2 ?_⟩
  intro q t ht n hn
  have hn' : n = "a-b" ∨ n = "c" := by
    cases q with
    | nil => cases ht
    | cons x q =>
      obtain ⟨u, h1, h2⟩ := tableAt_sub ht
      simp only [AMap.get?] at h1
      split at h1
      · rename_i hx
        subst hx
        cases h1
        rcases h2 with ⟨rfl, -⟩ | ⟨-, h2⟩
        · simp_all
        · cases q with
          | nil => cases h2
          | cons y q =>
            obtain ⟨w, h3, h4⟩ := tableAt_sub h2
            simp only [Table.subs, AMap.get?] at h3
            split at h3
            · rename_i hy
              subst hy
              cases h3
              rcases h4 with ⟨rfl, -⟩ | ⟨h4, h5⟩
              · simp_all
              · cases q with
                | nil => exact absurd rfl h4
                | cons z q => simp [tableAt, Table.subs, AMap.get?] at h5
            · cases h3
      · cases h1
  have hp : PlainName n := by rcases hn' with rfl | rfl <;> (simp only [PlainName]; decide +kernel)
  exact (plain_nameOk hp).2

/-- `log::warn` as a path. -/
example : ∃ s, flavorPathOfString s = .ok ["log", "warn"] :=
  C82_path (p := { leading := false, segs := [⟨"log", false⟩, ⟨"warn", false⟩] }) rfl (by simp)
    (by simp only [PlainName, List.forall_mem_cons]; decide +kernel)

end Hooq
