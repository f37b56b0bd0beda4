import Verif.Spec.Books

/-!
# The books of the site

C85: after a successful run the site has the books of all versions, and of the latest one once
more; the index leads to all of them.  But no book is built for its place: the latest book is the
same in both places.
-/

namespace Hooq

theorem buildBook_some {E : BookEnv} {lang version : String} {s s' : BookSite}
    (h : buildBook E lang version s = some s') :
    ∃ html, E.mdbook s.tree ("./" ++ lang ++ "/hooq-mdbook-" ++ lang) = some html ∧
      s' = { s with books := fun d l => if d = version ∧ l = lang then some html else s.books d l } := by
  simp only [buildBook, Option.bind_eq_bind, Option.bind_eq_some_iff] at h
  obtain ⟨toml, _, h⟩ := h
  split at h
  · simp only [Option.bind_eq_some_iff] at h
    obtain ⟨html, h1, h2⟩ := h
    exact ⟨html, h1, (Option.some.inj h2).symm⟩
  · cases h

theorem buildLang_some {E : BookEnv} {lang version : String} {isLatest : Bool} {s s' : BookSite}
    (h : buildLang E version isLatest s lang = some s') :
    ∃ html, E.mdbook s.tree ("./" ++ lang ++ "/hooq-mdbook-" ++ lang) = some html ∧ s'.tree = s.tree ∧
      s'.index = s.index ∧ ∀ d l, s'.books d l =
        if (d = version ∨ isLatest = true ∧ d = "latest") ∧ l = lang then some html else s.books d l := by
  simp only [buildLang, Option.bind_eq_bind, Option.bind_eq_some_iff] at h
  obtain ⟨s1, h1, h2⟩ := h
  obtain ⟨html, g1, rfl⟩ := buildBook_some h1
  cases isLatest with
  | false =>
    cases h2
    exact ⟨html, g1, rfl, rfl, fun d l => by simp⟩
  | true =>
    obtain ⟨html', g2, rfl⟩ := buildBook_some h2
    obtain rfl : html = html' := Option.some.inj (g1.symm.trans g2)
    refine ⟨html, g1, rfl, rfl, fun d l => ?_⟩
    by_cases hl : l = lang <;> by_cases hd : d = version <;> by_cases hd' : d = "latest" <;>
      simp [hl, hd, hd']

theorem buildBooks_some {E : BookEnv} {version : String} {isLatest : Bool} {s s' : BookSite}
    (h : buildBooks E version isLatest s = some s') :
    s'.index = s.index ∧ ∀ d l,
      ((d = version ∨ isLatest = true ∧ d = "latest") ∧ l ∈ ["en", "ja"] →
        ∃ html, s'.books d l = some html ∧ BookOf E version l html) ∧
      (¬ ((d = version ∨ isLatest = true ∧ d = "latest") ∧ l ∈ ["en", "ja"]) → s'.books d l = s.books d l) := by
  simp only [buildBooks, Option.bind_eq_bind, Option.bind_eq_some_iff, List.foldlM_cons, List.foldlM_nil] at h
  obtain ⟨fs, h1, s1, h2, s2, h3, h4⟩ := h
  obtain rfl := Option.some.inj h4
  obtain ⟨en, a1, a2, a3, a4⟩ := buildLang_some h2
  obtain ⟨ja, b1, b2, b3, b4⟩ := buildLang_some h3
  rw [a2] at b1
  refine ⟨b3.trans a3, fun d l => ⟨fun ⟨hd, hl⟩ => ?_, fun hn => ?_⟩⟩
  · simp only [List.mem_cons, List.not_mem_nil, or_false] at hl
    rcases hl with rfl | rfl
    · exact ⟨en, by rw [b4, if_neg (by simp), a4, if_pos ⟨hd, rfl⟩], fs, h1, a1⟩
    · exact ⟨ja, by rw [b4, if_pos ⟨hd, rfl⟩], fs, h1, b1⟩
  · rw [b4, if_neg, a4, if_neg]
    · rintro ⟨hd, rfl⟩; exact hn ⟨hd, by simp⟩
    · rintro ⟨hd, rfl⟩; exact hn ⟨hd, by simp⟩

/-- A book of the site belongs to one of the versions. -/
def BookFrom (E : BookEnv) (latest : String) (versions : List String) (dir lang html : String) : Prop :=
  (dir ∈ versions ∧ BookOf E dir lang html) ∨ (dir = "latest" ∧ latest ∈ versions ∧ BookOf E latest lang html)

theorem books_fold {E : BookEnv} {latest : String} (done versions : List String) {s s' : BookSite}
    (hn : "latest" ∉ done ++ versions)
    (h0 : ∀ d l, s.books d l ≠ none ↔ (d ∈ done ∨ d = "latest" ∧ latest ∈ done) ∧ l ∈ ["en", "ja"])
    (h1 : ∀ d l html, s.books d l = some html → BookFrom E latest done d l html)
    (h : versions.foldlM (fun s v => buildBooks E v (v == latest) s) s = some s') :
    s'.index = s.index ∧
    (∀ d l, s'.books d l ≠ none ↔
      (d ∈ done ++ versions ∨ d = "latest" ∧ latest ∈ done ++ versions) ∧ l ∈ ["en", "ja"]) ∧
    (∀ d l html, s'.books d l = some html → BookFrom E latest (done ++ versions) d l html) := by
  induction versions generalizing done s with
  | nil =>
    cases h
    rw [List.append_nil]
    exact ⟨rfl, h0, h1⟩
  | cons v vs ih =>
    simp only [List.foldlM_cons, Option.bind_eq_bind, Option.bind_eq_some_iff] at h
    obtain ⟨s1, g1, g2⟩ := h
    obtain ⟨b1, b2⟩ := buildBooks_some g1
    have hv : v ≠ "latest" := fun h => hn (by simp [h])
    have hd : "latest" ∉ done := fun h => hn (by simp [h])
    have := ih (done ++ [v]) (s := s1) (by simpa using hn) ?_ ?_ g2
    · simp only [List.append_assoc, List.cons_append, List.nil_append] at this
      exact ⟨this.1.trans b1, this.2⟩
    · intro d l
      by_cases hc : (d = v ∨ (v == latest) = true ∧ d = "latest") ∧ l ∈ ["en", "ja"]
      · obtain ⟨html, g3, _⟩ := (b2 d l).1 hc
        simp only [g3, ne_eq, reduceCtorEq, not_false_eq_true, true_iff]
        refine ⟨?_, hc.2⟩
        rcases hc.1 with rfl | ⟨e1, e2⟩
        · simp
        · exact .inr ⟨e2, by simp [← beq_iff_eq.1 e1]⟩
      · rw [(b2 d l).2 hc, h0]
        constructor
        · rintro ⟨e1 | ⟨e1, e2⟩, e3⟩
          · exact ⟨.inl (by simp [e1]), e3⟩
          · exact ⟨.inr ⟨e1, by simp [e2]⟩, e3⟩
        · rintro ⟨e1 | ⟨e1, e2⟩, e3⟩
          · simp only [List.mem_append, List.mem_cons, List.not_mem_nil, or_false] at e1
            rcases e1 with e1 | e1
            · exact ⟨.inl e1, e3⟩
            · exact absurd ⟨.inl e1, e3⟩ hc
          · simp only [List.mem_append, List.mem_cons, List.not_mem_nil, or_false] at e2
            rcases e2 with e2 | e2
            · exact ⟨.inr ⟨e1, e2⟩, e3⟩
            · exact absurd ⟨.inr ⟨by simp [e2], e1⟩, e3⟩ hc
    · intro d l html hb
      by_cases hc : (d = v ∨ (v == latest) = true ∧ d = "latest") ∧ l ∈ ["en", "ja"]
      · obtain ⟨html', g3, g4⟩ := (b2 d l).1 hc
        obtain rfl : html' = html := Option.some.inj (g3.symm.trans hb)
        rcases hc.1 with rfl | ⟨e1, e2⟩
        · exact .inl ⟨by simp, g4⟩
        · have e1 := beq_iff_eq.1 e1
          subst e1
          exact .inr ⟨e2, by simp, g4⟩
      · rw [(b2 d l).2 hc] at hb
        rcases h1 d l html hb with ⟨e1, e2⟩ | ⟨e1, e2, e3⟩
        · exact .inl ⟨by simp [e1], e2⟩
        · exact .inr ⟨e1, by simp [e2], e3⟩

/-- **C85**, without the places: after a successful run there is a book exactly for every version and for
`latest`, in both languages; each was built from the checkout of its version, that of `latest` from the
latest version.  Missing: that the books are built for their places (false, `C85_misplaced`). -/
theorem C85_books_partial (E : BookEnv) (latest : String) (versions : List String) (s s' : BookSite)
    (hn : "latest" ∉ versions) (h : booksMain E latest versions s = some s') :
    (∀ d l, s'.books d l ≠ none ↔ (d ∈ versions ∨ d = "latest" ∧ latest ∈ versions) ∧ (l = "en" ∨ l = "ja")) ∧
    (∀ v ∈ versions, ∀ l html, s'.books v l = some html → BookOf E v l html) ∧
    (∀ l html, s'.books "latest" l = some html → BookOf E latest l html) := by
  simp only [booksMain] at h
  split at h
  · obtain ⟨_, h1, h2⟩ := books_fold (E := E) (latest := latest) [] versions (by simpa using hn) (by simp) (by simp) h
    refine ⟨fun d l => ?_, fun v hv l html hb => ?_, fun l html hb => ?_⟩
    · simpa using h1 d l
    · rcases h2 v l html hb with ⟨_, e⟩ | ⟨e, _⟩
      · exact e
      · exact absurd (e ▸ hv) hn
    · rcases h2 "latest" l html hb with ⟨e, _⟩ | ⟨_, _, e⟩
      · exact absurd e hn
      · exact e
  · cases h

/-- **C85**: the index of a successful run leads to existing books, and to all of them. -/
theorem C85_links (E : BookEnv) (latest : String) (versions : List String) (s s' : BookSite)
    (hn : "latest" ∉ versions) (hl : latest ∈ versions) (h : booksMain E latest versions s = some s') :
    ∃ links, s'.index = some links ∧ ∀ d l, (d, l) ∈ links ↔ s'.books d l ≠ none := by
  have h1 := (C85_books_partial E latest versions s s' hn h).1
  simp only [booksMain] at h
  split at h
  · obtain ⟨h2, _⟩ := books_fold (E := E) (latest := latest) [] versions (by simpa using hn) (by simp) (by simp) h
    refine ⟨_, h2, fun d l => ?_⟩
    rw [h1]
    simp only [indexLinks, List.mem_append, List.mem_cons, Prod.mk.injEq, List.not_mem_nil, or_false,
      List.mem_flatMap, hl, and_true]
    constructor
    · rintro ((⟨e1, e2⟩ | ⟨e1, e2⟩) | ⟨v, e3, ⟨e1, e2⟩ | ⟨e1, e2⟩⟩)
      · exact ⟨.inr e1, .inl e2⟩
      · exact ⟨.inr e1, .inr e2⟩
      · exact ⟨.inl (e1 ▸ e3), .inl e2⟩
      · exact ⟨.inl (e1 ▸ e3), .inr e2⟩
    · rintro ⟨e1 | e1, e2 | e2⟩
      · exact .inr ⟨d, e1, .inl ⟨rfl, e2⟩⟩
      · exact .inr ⟨d, e1, .inr ⟨rfl, e2⟩⟩
      · exact .inl (.inl ⟨e1, e2⟩)
      · exact .inl (.inr ⟨e1, e2⟩)
  · cases h

theorem buildBook_runs (E : BookEnv) (lang version : String) (s : BookSite) :
    (∃ s', buildBook E lang version s = some s') ↔ Buildable E s.tree lang := by
  simp only [buildBook, Option.bind_eq_bind, Option.bind_eq_some_iff, Buildable]
  constructor
  · rintro ⟨s', toml, h1, h2⟩
    split at h2
    · rename_i he
      simp only [Option.bind_eq_some_iff] at h2
      obtain ⟨html, h3, _⟩ := h2
      exact ⟨⟨toml, h1, he⟩, html, h3⟩
    · cases h2
  · rintro ⟨⟨toml, h1, he⟩, html, h3⟩
    refine ⟨{ s with books := fun d l => if d = version ∧ l = lang then some html else s.books d l }, toml, h1, ?_⟩
    rw [if_pos he, h3]
    rfl

theorem buildLang_runs (E : BookEnv) (lang version : String) (isLatest : Bool) (s : BookSite) :
    (∃ s', buildLang E version isLatest s lang = some s') ↔ Buildable E s.tree lang := by
  constructor
  · rintro ⟨s', h⟩
    simp only [buildLang, Option.bind_eq_bind, Option.bind_eq_some_iff] at h
    obtain ⟨s1, h1, _⟩ := h
    exact (buildBook_runs E lang version s).1 ⟨s1, h1⟩
  · intro h
    obtain ⟨s1, h1⟩ := (buildBook_runs E lang version s).2 h
    have ht : s1.tree = s.tree := by
      obtain ⟨_, _, rfl⟩ := buildBook_some h1
      rfl
    simp only [buildLang, Option.bind_eq_bind, h1, Option.bind_some]
    cases isLatest with
    | false => exact ⟨s1, rfl⟩
    | true => exact (buildBook_runs E lang "latest" s1).2 (ht ▸ h)

theorem buildBooks_runs (E : BookEnv) (version : String) (isLatest : Bool) (s : BookSite) :
    (∃ s', buildBooks E version isLatest s = some s') ↔
      ∃ fs, E.checkout version = some fs ∧ ∀ lang ∈ ["en", "ja"], Buildable E fs lang := by
  simp only [buildBooks, Option.bind_eq_bind, Option.bind_eq_some_iff, List.foldlM_cons, List.foldlM_nil]
  constructor
  · rintro ⟨s', fs, h1, s1, h2, s2, h3, _⟩
    obtain ⟨_, _, a2, _⟩ := buildLang_some h2
    have g1 := (buildLang_runs E _ _ _ _).1 ⟨_, h2⟩
    have g2 := (buildLang_runs E _ _ _ _).1 ⟨_, h3⟩
    rw [a2] at g2
    refine ⟨fs, h1, fun lang hl => ?_⟩
    simp only [List.mem_cons, List.not_mem_nil, or_false] at hl
    rcases hl with rfl | rfl
    · exact g1
    · exact g2
  · rintro ⟨fs, h1, h2⟩
    obtain ⟨s1, h3⟩ := (buildLang_runs E "en" version isLatest { s with tree := fs }).2 (h2 _ (by simp))
    obtain ⟨_, _, a2, _⟩ := buildLang_some h3
    obtain ⟨s2, h4⟩ := (buildLang_runs E "ja" version isLatest s1).2 (by rw [a2]; exact h2 _ (by simp))
    exact ⟨s2, fs, h1, s1, h3, s2, h4, rfl⟩

/-- **C85**: a run succeeds exactly if it is started in `docs` and all versions can be checked out and
built in both languages. -/
theorem C85_runs (E : BookEnv) (latest : String) (versions : List String) (s : BookSite) :
    (∃ s', booksMain E latest versions s = some s') ↔ E.inDocs = true ∧
      ∀ v ∈ versions, ∃ fs, E.checkout v = some fs ∧ ∀ lang ∈ ["en", "ja"], Buildable E fs lang := by
  have fold : ∀ s : BookSite, (∃ s', versions.foldlM (fun s v => buildBooks E v (v == latest) s) s = some s') ↔
      ∀ v ∈ versions, ∃ fs, E.checkout v = some fs ∧ ∀ lang ∈ ["en", "ja"], Buildable E fs lang := by
    induction versions with
    | nil => exact fun s => ⟨fun _ => by simp, fun _ => ⟨s, rfl⟩⟩
    | cons v vs ih =>
      intro s
      rw [List.forall_mem_cons]
      simp only [List.foldlM_cons, Option.bind_eq_bind, Option.bind_eq_some_iff]
      constructor
      · rintro ⟨s', s1, h1, h2⟩
        exact ⟨(buildBooks_runs E v _ s).1 ⟨s1, h1⟩, (ih s1).1 ⟨s', h2⟩⟩
      · rintro ⟨h1, h2⟩
        obtain ⟨s1, h3⟩ := (buildBooks_runs E v (v == latest) s).2 h1
        obtain ⟨s2, h4⟩ := (ih s1).2 h2
        exact ⟨s2, s1, h3, h4⟩
  simp only [booksMain]
  cases hd : E.inDocs with
  | false => simp
  | true => simpa using fold _

/-- **C85** fails for the places: after every successful run the latest book is the same in both places,
so that it is not built for one of them. -/
theorem C85_misplaced (E : BookEnv) (s s' : BookSite) (h : booksMain E latestBook bookVersions s = some s') :
    (∀ l, s'.books "latest" l = s'.books latestBook l) ∧ ∀ url, ¬ Placed url s' := by
  obtain ⟨h1, h2, h3⟩ := C85_books_partial E latestBook bookVersions s s' (by decide) h
  have key : ∀ l, s'.books "latest" l = s'.books latestBook l := by
    intro l
    have e1 := h1 "latest" l
    have e2 := h1 latestBook l
    cases g1 : s'.books "latest" l with
    | none =>
      cases g2 : s'.books latestBook l with
      | none => rfl
      | some b =>
        have := (e2.1 (by simp [g2])).2
        exact absurd g1 (e1.2 ⟨.inr ⟨rfl, by decide⟩, this⟩)
    | some a =>
      cases g2 : s'.books latestBook l with
      | none =>
        have := (e1.1 (by simp [g1])).2
        exact absurd g2 (e2.2 ⟨.inl (by decide), this⟩)
      | some b =>
        obtain ⟨fs, f1, f2⟩ := h3 l a g1
        obtain ⟨fs', f1', f2'⟩ := h2 latestBook (by decide) l b g2
        obtain rfl : fs = fs' := Option.some.inj (f1.symm.trans f1')
        exact f2.symm.trans f2'
  refine ⟨key, fun url hu => ?_⟩
  have hne := (h1 "latest" "en").2 ⟨.inr ⟨rfl, by decide⟩, .inl rfl⟩
  cases g : s'.books "latest" "en" with
  | none => exact hne g
  | some html =>
    have p1 := hu _ _ _ g
    have p2 := hu latestBook "en" html (by rw [← key]; exact g)
    exact absurd (Option.some.inj (p1.symm.trans p2)) (by decide)

/-- A tag of a release. -/
def releaseTag (a b c : Nat) : String := s!"v{a}.{b}.{c}"

/-- **C85**, the constants of the script: `latest` is the newest of the versions that are built. -/
theorem C85_latest (E : BookEnv) (s s' : BookSite) (h : booksMain E latestBook bookVersions s = some s') :
    ∃ a b c, (∀ l html, s'.books "latest" l = some html → BookOf E (releaseTag a b c) l html) ∧
      s'.books (releaseTag a b c) "en" ≠ none ∧ s'.books (releaseTag a b c) "ja" ≠ none ∧
      ∀ v l, s'.books v l ≠ none → v = "latest" ∨
        ∃ a' b' c', v = releaseTag a' b' c' ∧ (a' < a ∨ a' = a ∧ (b' < b ∨ b' = b ∧ c' ≤ c)) := by
  obtain ⟨h1, -, h3⟩ := C85_books_partial E latestBook bookVersions s s' (by decide) h
  refine ⟨0, 3, 1, h3, (h1 _ _).2 ⟨.inl (by decide), .inl rfl⟩, (h1 _ _).2 ⟨.inl (by decide), .inr rfl⟩, fun v l hv => ?_⟩
  rcases ((h1 v l).1 hv).1 with hm | ⟨rfl, -⟩
  · simp only [bookVersions, List.mem_cons, List.not_mem_nil, or_false] at hm
    rcases hm with rfl | rfl
    · exact .inr ⟨0, 3, 1, by decide, by decide⟩
    · exact .inr ⟨0, 3, 0, by decide, by decide⟩
  · exact .inl rfl

namespace BooksEx

/-- The working tree of a version. -/
def tree (v : String) : Files := fun p =>
  if p = "./en/hooq-mdbook-en/book.toml" ∨ p = "./ja/hooq-mdbook-ja/book.toml" then some v else none

/-- Tools that print what they are given. -/
def env : BookEnv where
  inDocs := true
  checkout v := some (tree v)
  editable _ := true
  mdbook fs p := (fs (p ++ "/book.toml")).map (p ++ " " ++ ·)

/-- A run with the constants of the script. -/
example : ∃ s', booksMain env latestBook bookVersions ⟨fun _ => none, none, fun _ _ => none⟩ = some s' ∧
    s'.books "v0.3.0" "ja" = some "./ja/hooq-mdbook-ja v0.3.0" ∧
    s'.books "latest" "ja" = some "./ja/hooq-mdbook-ja v0.3.1" ∧
    (booksMain env latestBook bookVersions s').isSome := by
  refine ⟨_, rfl, ?_⟩
  decide +kernel

/-- A version without a book stops the run. -/
example : ¬ ∃ s', booksMain { env with checkout := fun v => if v = "v0.3.0" then none else some (tree v) }
    latestBook bookVersions ⟨fun _ => none, none, fun _ _ => none⟩ = some s' := by
  rw [C85_runs]
  rintro ⟨_, h⟩
  obtain ⟨fs, h1, _⟩ := h "v0.3.0" (by decide)
  simp at h1

end BooksEx

end Hooq
