import Verif.Proof.Cache
import Verif.Props.Fixture

/-!
# The cache of `hooq.toml` files (C39, C40)
-/

namespace Hooq

theorem cacheKey_eq (v : Option String) : cacheKey v = projectDir v := by cases v <;> rfl

/-- C39.  No history of requests, changes of the environment variable and changes of
files leads to a panic. -/
theorem C39_no_panic {E : StoreEnv} (hp : ∀ s t, E.parse s = some t → UniqToml t) {v : Option String}
    {files : String → FileState} {h : List Event} {st : CacheState}
    (hr : CRun E Reordered Free (.start v files) h st) (i : Nat) : st.procs i ≠ .panicked := by
  intro hi
  have := ((sound_start E v files).run hp hr).procs i
  rw [hi] at this
  exact this

/-- C39.  A running request can always go on, and its next step does not panic. -/
theorem C39_progress {E : StoreEnv} (hp : ∀ s t, E.parse s = some t → UniqToml t) {v : Option String}
    {files : String → FileState} {h : List Event} {st : CacheState}
    (hr : CRun E Reordered Free (.start v files) h st) {i : Nat} (hi : (st.procs i).Running) :
    ∃ e st', e.who = some i ∧ CStep E Reordered st e st' ∧ st'.procs i ≠ .panicked := by
  have hs := ((sound_start E v files).run hp hr).procs i
  cases hph : st.procs i with
  | idle | done _ | panicked => rw [hph] at hi; exact hi.elim
  | begun => exact ⟨_, _, rfl, .key st i hph, by simp [CacheState.go]⟩
  | keyed k =>
    cases hf : st.cache.get? k with
    | none => exact ⟨_, _, rfl, .miss st i k hph hf, by simp [CacheState.go]⟩
    | some t => exact ⟨_, _, rfl, .hit st i k t hph hf, by simp [CacheState.go]⟩
  | missed => exact ⟨_, _, rfl, .probe st i hph, by simp [CacheState.go]⟩
  | probing d =>
    by_cases hf : st.files d = .absent
    · exact ⟨_, _, rfl, .absent st i d hph hf, by simp [CacheState.go]⟩
    · exact ⟨_, _, rfl, .present st i d hph hf, by simp [CacheState.go]⟩
  | reading d =>
    cases hf : st.files d with
    | absent | unreadable =>
      exact ⟨_, _, rfl, .unread st i d hph (by rw [hf]; simp), by simp [CacheState.go]⟩
    | text s =>
      have ho : ∀ t, E.parse s = some t → Reordered t (id t) := fun t ht => ⟨sameToml_refl t, hp s t ht⟩
      cases hc : E.check (st.helper E) d s id with
      | error e => exact ⟨_, _, rfl, .bad st i d s id e hph hf ho hc, by simp [CacheState.go]⟩
      | ok t => exact ⟨_, _, rfl, .read st i d s id t hph hf ho hc, by simp [CacheState.go]⟩
  | checked t => exact ⟨_, _, rfl, .mark st i t hph, by simp [CacheState.go]⟩
  | storing k t => exact ⟨_, _, rfl, .store st i k t hph, by simp [CacheState.go]⟩
  | loaded o =>
    cases o with
    | none => exact ⟨_, _, rfl, .plain st i hph, by simp [CacheState.go]⟩
    | some t =>
      rw [hph] at hs
      obtain ⟨r, h1⟩ := Accepted.apply hs ⟨sameToml_refl t, hs.1⟩ (st.helper E)
      exact ⟨_, _, rfl, .finish st i t t r hph ⟨sameToml_refl t, hs.1⟩ h1, by simp [CacheState.go]⟩

/-- Steps that a request has left at most. -/
def Phase.left : Phase → Nat
  | .idle => 9
  | .begun => 8
  | .keyed _ => 7
  | .missed => 6
  | .probing _ => 5
  | .reading _ => 4
  | .checked _ => 3
  | .storing _ _ => 2
  | .loaded _ => 1
  | .done _ | .panicked => 0

/-- C39.  A request takes at most nine steps. -/
theorem C39_bounded {E : StoreEnv} {G : CacheState → Event → Prop} {v : Option String}
    {files : String → FileState} {h : List Event} {st : CacheState}
    (hr : CRun E Reordered G (.start v files) h st) (i : Nat) :
    (h.filter fun e => e.who = some i).length ≤ 9 := by
  suffices (h.filter fun e => e.who = some i).length + (st.procs i).left ≤ 9 by omega
  induction hr with
  | nil => simp [CacheState.start, Phase.left]
  | @snoc h st st' e _ _ hs ih =>
    rw [List.filter_append, List.length_append]
    have key : ∀ (j : Nat) (p : Phase), e.who = some j → (st.procs j).left ≥ p.left + 1 →
        st'.procs = (st.go j p).procs → ((h.filter fun e => e.who = some i).length +
          ([e].filter fun e => e.who = some i).length) + (st'.procs i).left ≤ 9 := by
      intro j p hw hl hst
      rw [hst]
      simp only [CacheState.go]
      by_cases hji : i = j
      · subst hji
        rw [if_pos rfl]
        have : ([e].filter fun e => e.who = some i).length = 1 := by simp [hw]
        omega
      · rw [if_neg hji]
        have : ([e].filter fun e => e.who = some i).length = 0 := by simp [hw, Ne.symm hji]
        omega
    cases hs with
    | host v => simpa [Event.who] using ih
    | write d f => simpa [Event.who] using ih
    | begin j h1 => exact key j .begun rfl (by rw [h1]; simp [Phase.left]) rfl
    | key j h1 => exact key j _ rfl (by rw [h1]; simp [Phase.left]) rfl
    | hit j k t h1 h2 => exact key j _ rfl (by rw [h1]; simp [Phase.left]) rfl
    | miss j k h1 h2 => exact key j _ rfl (by rw [h1]; simp [Phase.left]) rfl
    | mark j t h1 => exact key j _ rfl (by rw [h1]; simp [Phase.left]) rfl
    | probe j h1 => exact key j _ rfl (by rw [h1]; simp [Phase.left]) rfl
    | absent j d h1 h2 => exact key j _ rfl (by rw [h1]; simp [Phase.left]) rfl
    | present j d h1 h2 => exact key j _ rfl (by rw [h1]; simp [Phase.left]) rfl
    | unread j d h1 h2 => exact key j _ rfl (by rw [h1]; simp [Phase.left]) rfl
    | bad j d s o e h1 h2 h3 h4 => exact key j _ rfl (by rw [h1]; simp [Phase.left]) rfl
    | read j d s o t h1 h2 h3 h4 => exact key j _ rfl (by rw [h1]; simp [Phase.left]) rfl
    | store j k t h1 => exact key j (.loaded (some t)) rfl (by rw [h1]; simp [Phase.left]) rfl
    | plain j h1 => exact key j _ rfl (by rw [h1]; simp [Phase.left]) rfl
    | finish j t t' m h1 h2 h3 => exact key j _ rfl (by rw [h1]; simp [Phase.left]) rfl
    | panic j t t' e h1 h2 h3 => exact key j _ rfl (by rw [h1]; simp [Phase.left]) rfl

/-- C39, partial.  If the host changes the environment variable only while no request is
running, then a successful request for a project returns the presets, when that
project's file was found absent, or the presets with tables applied that were read from
that project's own file: by the request itself, or by the request that last stored
them when this one looked.  The presets name the helper crate as it was found for the
project of the very first request (`C53_helper_once`).  Missing: changes of the
environment variable during a request, with which the claim is false (`C39_mixup`). -/
theorem C39_own_config_partial {E : StoreEnv} (hp : ∀ s t, E.parse s = some t → UniqToml t) {v : Option String}
    {files : String → FileState} {h : List Event} {st : CacheState}
    (hr : CRun E Reordered Calm (.start v files) h st) {i : Nat} {m : FlavorMap}
    (hi : st.procs i = .done (.ok m)) :
    ∃ w, firstVar v h = some w ∧
      ((.absent i (projectDir (st.own i)) ∈ h ∧ m = E.builtins (E.helpers w)) ∨
      ∃ t t', ComesFrom E files h i (projectDir (st.own i)) t ∧ Reordered t t' ∧
        E.withTables (E.helpers w) t' = .ok m) := by
  have := (Track.run hp hr).procs i
  rw [hi] at this
  obtain ⟨hl, ho, this⟩ := this
  rw [(Once.run hr).once] at ho
  obtain ⟨w, hw, rfl⟩ := Option.map_eq_some_iff.1 ho
  rw [cacheKey_eq] at this
  exact ⟨w, hw, this⟩

/-- What the presets of a request are made from. -/
def Phase.Uses (E : StoreEnv) (o : Option (List TT)) : Phase → Prop
  | .done (.ok m) => ∃ hl, o = some hl ∧ (m = E.presets hl ∨ ∃ t, E.apply hl t = .ok m)
  | _ => True

theorem Phase.Uses.of_not_ok {E : StoreEnv} {o : Option (List TT)} {p : Phase} (hp : ∀ m, p ≠ .done (.ok m)) :
    p.Uses E o := by
  cases p with
  | done r =>
    cases r with
    | error e => trivial
    | ok m => exact absurd rfl (hp m)
  | _ => trivial

/-- C53.  In every history the name of the helper crate is the one found for the project
for which the first request of the process was made, and all requests, for whatever
project, return flavors made with it. -/
theorem C53_helper_once {E : StoreEnv} {G : CacheState → Event → Prop} {v : Option String}
    {files : String → FileState} {h : List Event} {st : CacheState}
    (hr : CRun E Reordered G (.start v files) h st) {i : Nat} {m : FlavorMap}
    (hi : st.procs i = .done (.ok m)) :
    ∃ w, firstVar v h = some w ∧
      (m = E.builtins (E.helpers w) ∨ ∃ t, E.withTables (E.helpers w) t = .ok m) := by
  suffices hu : ∀ i, (st.procs i).Uses E st.once by
    have := hu i
    rw [hi] at this
    obtain ⟨hl, ho, this⟩ := this
    rw [(Once.run hr).once] at ho
    obtain ⟨w, hw, rfl⟩ := Option.map_eq_some_iff.1 ho
    exact ⟨w, hw, this⟩
  clear hi
  induction hr with
  | nil => exact fun _ => trivial
  | @snoc h st st' e hr _ hs ih =>
    have ho := Once.run hr
    have one {i : Nat} {p : Phase} (hi : st.procs i = p) (hp : p ≠ .idle) :
        st.once = some (st.helper E) := st.helper_once (ho.set i (by rw [hi]; exact hp))
    have go {i : Nat} {p : Phase} (hp : p.Uses E st.once) (j : Nat) :
        ((st.go i p).procs j).Uses E st.once := by
      simp only [CacheState.go]
      split
      · exact hp
      · exact ih j
    intro j
    cases hs with
    | host w => exact ih j
    | write d f => exact ih j
    | begin i h1 =>
      simp only [CacheState.go]
      split
      · trivial
      · have := ih j
        cases hp : st.procs j with
        | done r =>
          cases r with
          | error e => trivial
          | ok m =>
            rw [hp] at this
            obtain ⟨hl, hh, this⟩ := this
            exact ⟨hl, by simp [CacheState.helper, hh], this⟩
        | _ => trivial
    | key i h1 => exact go (.of_not_ok (by simp)) j
    | hit i k t h1 h2 => exact go (.of_not_ok (by simp)) j
    | miss i k h1 h2 => exact go (.of_not_ok (by simp)) j
    | probe i h1 => exact go (.of_not_ok (by simp)) j
    | absent i d h1 h2 => exact go (.of_not_ok (by simp)) j
    | present i d h1 h2 => exact go (.of_not_ok (by simp)) j
    | unread i d h1 h2 => exact go (.of_not_ok (by simp)) j
    | bad i d s o e h1 h2 h3 h4 => exact go (.of_not_ok (by simp)) j
    | read i d s o t h1 h2 h3 h4 => exact go (.of_not_ok (by simp)) j
    | mark i t h1 => exact go (.of_not_ok (by simp)) j
    | store i k t h1 => exact go (i := i) (p := .loaded (some t)) (.of_not_ok (by simp)) j
    | plain i h1 => exact go (i := i) (p := .done (.ok _)) ⟨_, one h1 (by simp), .inl rfl⟩ j
    | finish i t t' m h1 h2 h3 => exact go (i := i) (p := .done (.ok m)) ⟨_, one h1 (by simp), .inr ⟨t', h3⟩⟩ j
    | panic i t t' e h1 h2 h3 => exact go (.of_not_ok (by simp)) j

/-- C39.  The cache itself: what is found under a key is what was last stored there, and
was read from the file of the project with that key. -/
theorem C39_cache {E : StoreEnv} (hp : ∀ s t, E.parse s = some t → UniqToml t) {v : Option String}
    {files : String → FileState} {h : List Event} {st : CacheState}
    (hr : CRun E Reordered Calm (.start v files) h st) (k : String) :
    st.cache.get? k = lastStore none k h ∧
    ∀ t, st.cache.get? k = some t → ∃ j, ReadBy E files h j k t :=
  ⟨(Track.run hp hr).cache k, (Track.run hp hr).origin k⟩

/-- C53.  What the path of the helper macros is for a project: `hooq` as it is named there
(with `-` as `_`), or else `hooq-macros` as it is named there, or else `hooq`; the macros
are in the module `source_excerpt_helpers`, except that with the name `hooq_macros` they
are at the root. -/
theorem C53_helper_path (E : StoreEnv) (v : Option String) :
    ∃ n, E.helpers v = (if n = "hooq_macros" then tkAbs [n] else tkAbs [n, "source_excerpt_helpers"]) ∧
      '-' ∉ n.toList ∧
      (∀ m, E.crates v "hooq" = some (.name m) → n = underscores m) ∧
      (∀ m, E.crates v "hooq" = none → E.crates v "hooq-macros" = some (.name m) → n = underscores m) ∧
      ((E.crates v "hooq" = some .itself ∨ E.crates v "hooq" = none ∧
        (E.crates v "hooq-macros" = some .itself ∨ E.crates v "hooq-macros" = none)) → n = "hooq") := by
  have dash : ∀ m : String, '-' ∉ (underscores m).toList := by
    intro m hm
    simp only [underscores, String.toList_ofList, List.mem_map] at hm
    obtain ⟨c, -, hc⟩ := hm
    split at hc
    · simp at hc
    · contradiction
  refine ⟨crateName (E.crates v), rfl, ?_, ?_, ?_, ?_⟩
  · simp only [crateName]
    split
    · decide
    · exact dash _
    · decide
  · intro m hm
    simp [crateName, hm]
  · intro m h1 h2
    simp [crateName, h1, h2]
  · rintro (h1 | ⟨h1, h2 | h2⟩) <;> simp [crateName, *]

/-! ## A file that stays as it is -/

/-- What a request for project `k` (`o` is the name of the helper crate) can be doing while the
file of the project is `f` and nothing is cached for it. -/
def Phase.Still (E : StoreEnv) (k : String) (f : FileState) (o : Option (List TT)) : Phase → Prop
  | .idle | .begun | .missed => True
  | .keyed d | .probing d => d = k
  | .reading d => d = k ∧ f ≠ .absent
  | .loaded o => o = none ∧ f = .absent
  | .done (.error e) => BrokenFile E k f e
  | .done (.ok m) => f = .absent ∧ o.map E.presets = some m
  | .checked _ | .storing _ _ | .panicked => False

/-- What holds while the file of project `k` is `f` and nothing is cached for it. -/
structure Steady (E : StoreEnv) (k : String) (f : FileState) (st0 st : CacheState) : Prop where
  disk : st.files k = f
  cache : st.cache.get? k = none
  own : ∀ i, (st.procs i).Running → st.own i = st.var
  old : ∀ i, st0.procs i ≠ .idle → ¬ (st.procs i).Running
  fresh : ∀ i, st0.procs i = .idle → cacheKey (st.own i) = k →
    (st.procs i).Still E k f st.once
  start : ∀ i, st0.procs i ≠ .idle → st.procs i = st0.procs i
  set : ∀ i, st0.procs i = .idle → st.procs i ≠ .idle → st.once.isSome
  key : ∀ i k' t, st.procs i = .storing k' t → k' = cacheKey (st.own i)

theorem Steady.go {E : StoreEnv} {k : String} {f : FileState} {st0 st : CacheState}
    (h : Steady E k f st0 st) {i : Nat} {p : Phase} (hr : (st.procs i).Running)
    (hp : cacheKey st.var = k → p.Still E k f st.once)
    (hkey : ∀ k' t, p = .storing k' t → k' = cacheKey st.var := by simp) :
    Steady E k f st0 (st.go i p) := by
  have hi0 : st0.procs i = .idle := by
    by_contra hne
    exact h.old i hne hr
  refine ⟨h.disk, h.cache, fun j hj => ?_, fun j hj => ?_, fun j hj hk => ?_, fun j hj => ?_,
    fun j hj hn => ?_, fun j k' t hj => ?_⟩
  · simp only [CacheState.go] at hj ⊢
    split at hj
    · subst j; exact h.own i hr
    · exact h.own j hj
  · have : j ≠ i := fun e => hj (e ▸ hi0)
    simp only [CacheState.go, if_neg this]
    exact h.old j hj
  · by_cases hji : j = i
    · subst hji
      have ho := h.own j hr
      simp only [CacheState.go, if_true]
      rw [show (st.go j p).own = st.own from rfl, ho] at hk
      exact hp hk
    · simp only [CacheState.go, if_neg hji]
      exact h.fresh j hj hk
  · have : j ≠ i := fun e => hj (e ▸ hi0)
    simp only [CacheState.go, if_neg this]
    exact h.start j hj
  · by_cases hji : j = i
    · subst hji
      exact h.set j hj (by intro h0; rw [h0] at hr; exact hr)
    · simp only [CacheState.go, if_neg hji] at hn
      exact h.set j hj hn
  · by_cases hji : j = i
    · subst hji
      simp only [CacheState.go, if_true] at hj
      rw [show (st.go j p).own = st.own from rfl, h.own j hr]
      exact hkey k' t hj
    · simp only [CacheState.go, if_neg hji] at hj
      exact h.key j k' t hj

theorem Phase.Still.once {E : StoreEnv} {k : String} {f : FileState} {o o' : Option (List TT)} {p : Phase}
    (hp : p.Still E k f o) (hm : ∀ hl, o = some hl → o' = some hl) : p.Still E k f o' := by
  cases p with
  | done r =>
    cases r with
    | error e => exact hp
    | ok m =>
      obtain ⟨h1, h2⟩ := hp
      obtain ⟨hl, rfl, rfl⟩ := Option.map_eq_some_iff.1 h2
      exact ⟨h1, by rw [hm hl rfl]; rfl⟩
  | _ => exact hp

theorem Steady.begin {E : StoreEnv} {k : String} {f : FileState} {st0 st : CacheState}
    (h : Steady E k f st0 st) {i : Nat} (hi : st.procs i = .idle) :
    Steady E k f st0 { st.go i .begun with
      once := some (st.helper E), own := fun j => if j = i then st.var else st.own j } := by
  have hi0 : st0.procs i = .idle := by
    by_contra hne
    rw [h.start i hne] at hi
    exact hne hi
  refine ⟨h.disk, h.cache, fun j hj => ?_, fun j hj => ?_, fun j hj hk => ?_, fun j hj => ?_,
    fun _ _ _ => rfl, fun j k' t hj => ?_⟩
  · simp only [CacheState.go] at hj ⊢
    split
    · rfl
    · rename_i hji
      rw [if_neg hji] at hj; exact h.own j hj
  · have : j ≠ i := fun e => hj (e ▸ hi0)
    simp only [CacheState.go, if_neg this]
    exact h.old j hj
  · by_cases hji : j = i
    · subst hji
      simp only [CacheState.go, if_true]; trivial
    · simp only [CacheState.go, if_neg hji] at hk ⊢
      exact (h.fresh j hj hk).once fun hl hh => by simp [CacheState.helper, hh]
  · have : j ≠ i := fun e => hj (e ▸ hi0)
    simp only [CacheState.go, if_neg this]
    exact h.start j hj
  · by_cases hji : j = i
    · subst hji
      simp only [CacheState.go, if_true] at hj
      cases hj
    · simp only [CacheState.go, if_neg hji] at hj ⊢
      exact h.key j k' t hj

theorem Steady.step {E : StoreEnv} {k : String} {f : FileState} {st0 st st' : CacheState}
    (hp : ∀ s t, E.parse s = some t → UniqToml t)
    (hf : f = .absent ∨ ∃ e, BrokenFile E k f e) (h : Steady E k f st0 st) {e : Event}
    (hg : Calm st e ∧ Fixed k e) (hs : CStep E Reordered st e st') : Steady E k f st0 st' := by
  have run {i : Nat} {p : Phase} (hi : st.procs i = p) (hp : p.Running) : (st.procs i).Running := by
    rw [hi]; exact hp
  have fr {i : Nat} {p : Phase} (hi : st.procs i = p) (hp : p.Running) (hk : cacheKey st.var = k) :
      p.Still E k f st.once := by
    have h0 : st0.procs i = .idle := by
      by_contra hne
      exact h.old i hne (run hi hp)
    have := h.fresh i h0 (by rw [h.own i (run hi hp)]; exact hk)
    rw [hi] at this
    exact this
  cases hs with
  | host v =>
    exact ⟨h.disk, h.cache, fun j hj => absurd hj (hg.1 v rfl j), h.old, h.fresh, h.start, h.set, h.key⟩
  | write d0 f0 =>
    have hd : k ≠ d0 := fun e => hg.2 f0 (by rw [e])
    refine ⟨?_, h.cache, h.own, h.old, h.fresh, h.start, h.set, h.key⟩
    simp only [if_neg hd]; exact h.disk
  | begin i h1 => exact h.begin h1
  | key i h1 => exact h.go (run h1 trivial) fun hk => hk
  | hit i k' t h1 h2 =>
    refine h.go (run h1 trivial) fun hk => ?_
    have hd : k' = k := fr h1 trivial hk
    rw [hd, h.cache] at h2; cases h2
  | miss i k' h1 h2 => exact h.go (run h1 trivial) fun hk => trivial
  | probe i h1 => exact h.go (run h1 trivial) fun hk => hk
  | absent i d h1 h2 =>
    refine h.go (run h1 trivial) fun hk => ⟨rfl, ?_⟩
    have hd : d = k := fr h1 trivial hk
    rw [← h.disk, ← hd]; exact h2
  | present i d h1 h2 =>
    refine h.go (run h1 trivial) fun hk => ?_
    have hd : d = k := fr h1 trivial hk
    refine ⟨hd, ?_⟩
    rw [← h.disk, ← hd]; exact h2
  | unread i d h1 h2 =>
    refine h.go (run h1 trivial) fun hk => ?_
    obtain ⟨hd, hne⟩ : d = k ∧ f ≠ .absent := fr h1 trivial hk
    subst hd
    rw [h.disk] at h2
    cases f with
    | absent => exact absurd rfl hne
    | unreadable => exact .unreadable
    | text s => exact absurd rfl (h2 s)
  | bad i d s o e h1 h2 h3 h4 =>
    refine h.go (run h1 trivial) fun hk => ?_
    obtain ⟨hd, hne⟩ : d = k ∧ f ≠ .absent := fr h1 trivial hk
    subst hd
    rw [h.disk] at h2
    subst h2
    simp only [StoreEnv.check] at h4
    split at h4
    · rename_i hn
      simp only [Except.error.injEq] at h4
      subst h4
      exact .unparsable s hn
    · rename_i t ht
      split at h4
      · rename_i e' he
        simp only [Except.error.injEq] at h4
        subst h4
        exact .unusable s t (o t) (st.helper E) e' ht (h3 t ht) he
      · simp at h4
  | read i d s o t h1 h2 h3 h4 =>
    refine h.go (run h1 trivial) fun hk => ?_
    obtain ⟨hd, hne⟩ : d = k ∧ f ≠ .absent := fr h1 trivial hk
    subst hd
    rw [h.disk] at h2
    subst h2
    obtain ⟨g1, g2⟩ := Accepted.of_check hp h3 h4
    rcases hf with hf | ⟨e, hf⟩
    · cases hf
    · cases hf with
      | unparsable _ hn => rw [hn] at g1; cases g1
      | unusable _ t1 t' v e hn hr ha =>
        rw [hn] at g1
        obtain rfl := Option.some.inj g1
        obtain ⟨r, hr⟩ := g2.apply hr v
        exact absurd (hr.symm.trans ha) (by simp)
  | mark i t h1 =>
    exact h.go (run h1 trivial) (fun hk => (fr h1 trivial hk).elim) fun k' t hk => by
      obtain ⟨rfl, -⟩ := Phase.storing.inj hk
      rfl
  | store i k' t h1 =>
    have hk : cacheKey st.var ≠ k := fun hk => fr h1 trivial hk
    have hk' : k' ≠ k := by
      rw [h.key i k' t h1, h.own i (run h1 trivial)]
      exact hk
    have := h.go (p := .loaded (some t)) (run h1 trivial) fun hk' => absurd hk' hk
    refine ⟨this.disk, ?_, this.own, this.old, this.fresh, this.start, this.set, this.key⟩
    simp only [get?_insert_map, if_neg hk']
    exact h.cache
  | plain i h1 =>
    refine h.go (run h1 trivial) fun hk => ?_
    have h3 : _ ∧ f = .absent := fr h1 trivial hk
    refine ⟨h3.2, ?_⟩
    have h0 : st0.procs i = .idle := by
      by_contra hne
      exact h.old i hne (run h1 trivial)
    rw [st.helper_once (E := E) (h.set i h0 (by rw [h1]; simp))]
    rfl
  | finish i t t' m h1 h2 h3 =>
    refine h.go (run h1 trivial) fun hk => ?_
    have h4 : some t = none ∧ f = .absent := fr h1 trivial hk
    cases h4.1
  | panic i t t' e h1 h2 h3 =>
    refine h.go (run h1 trivial) fun hk => ?_
    have h4 : some t = none ∧ f = .absent := fr h1 trivial hk
    cases h4.1

theorem steady_run {E : StoreEnv} (hp : ∀ s t, E.parse s = some t → UniqToml t) {k : String}
    {st0 st : CacheState} {h : List Event}
    (hf : st0.files k = .absent ∨ ∃ e, BrokenFile E k (st0.files k) e)
    (hc : st0.cache.get? k = none) (h0 : ∀ i, ¬ (st0.procs i).Running)
    (hr : CRun E Reordered (fun st e => Calm st e ∧ Fixed k e) st0 h st) :
    Steady E k (st0.files k) st0 st := by
  induction hr with
  | nil =>
    refine ⟨rfl, hc, fun i hi => absurd hi (h0 i), fun i _ => h0 i, fun i hi _ => ?_, fun _ _ => rfl,
      fun i hi hn => absurd hi hn, fun i k' t hi => absurd (show (st0.procs i).Running by rw [hi]; trivial) (h0 i)⟩
    rw [hi]; trivial
  | snoc _ hg hs ih => exact ih.step hp hf hg hs

/-- C40.  While the `hooq.toml` of project `k` is broken and not cached, every request
for the project that comes to an end fails with the error that says how the file is
broken, and nothing is cached for the project. -/
theorem C40_broken {E : StoreEnv} (hp : ∀ s t, E.parse s = some t → UniqToml t) {k : String}
    {st0 st : CacheState} {h : List Event} (hf : ∃ e, BrokenFile E k (st0.files k) e)
    (hc : st0.cache.get? k = none) (h0 : ∀ i, ¬ (st0.procs i).Running)
    (hr : CRun E Reordered (fun st e => Calm st e ∧ Fixed k e) st0 h st) :
    st.cache.get? k = none ∧
    ∀ i r, st0.procs i = .idle → projectDir (st.own i) = k → st.procs i = .done r →
      ∃ e, r = .error e ∧ BrokenFile E k (st0.files k) e := by
  have hs := steady_run hp (.inr hf) hc h0 hr
  have hne : st0.files k ≠ .absent := by
    obtain ⟨e, he⟩ := hf
    intro ha
    rw [ha] at he
    cases he
  refine ⟨hs.cache, fun i r hi hk hd => ?_⟩
  have := hs.fresh i hi ((cacheKey_eq _).trans hk)
  rw [hd] at this
  cases r with
  | error e => exact ⟨e, rfl, this⟩
  | ok m => exact absurd this.1 hne

/-- C40.  While there is no `hooq.toml` for project `k` and nothing is cached, every
request for the project that comes to an end returns the presets, and nothing is
cached; the presets name the helper crate of the first request of the process
(`C53_helper_once`). -/
theorem C40_missing {E : StoreEnv} (hp : ∀ s t, E.parse s = some t → UniqToml t) {k : String}
    {st0 st : CacheState} {h : List Event} (hf : st0.files k = .absent)
    (hc : st0.cache.get? k = none) (h0 : ∀ i, ¬ (st0.procs i).Running)
    (hr : CRun E Reordered (fun st e => Calm st e ∧ Fixed k e) st0 h st) :
    st.cache.get? k = none ∧
    ∀ i r, st0.procs i = .idle → projectDir (st.own i) = k → st.procs i = .done r →
      ∃ hl, st.once = some hl ∧ r = .ok (E.builtins hl) := by
  have hs := steady_run hp (.inl hf) hc h0 hr
  refine ⟨hs.cache, fun i r hi hk hd => ?_⟩
  have := hs.fresh i hi ((cacheKey_eq _).trans hk)
  rw [hd] at this
  cases r with
  | error e =>
    have : BrokenFile E k (st0.files k) e := this
    rw [hf] at this; cases this
  | ok m =>
    obtain ⟨-, h2⟩ : _ ∧ st.once.map E.presets = some m := this
    obtain ⟨hl, h3, rfl⟩ := Option.map_eq_some_iff.1 h2
    exact ⟨hl, h3, rfl⟩

/-- C40.  A failed request leaves no cached state behind, in any execution: whatever is
cached at any time was read from a file, and can be applied. -/
theorem C40_cached_usable {E : StoreEnv} (hp : ∀ s t, E.parse s = some t → UniqToml t) {v : Option String}
    {files : String → FileState} {h : List Event} {st : CacheState}
    (hr : CRun E Reordered Free (.start v files) h st) {k : String} {t : AMap Table}
    (hk : st.cache.get? k = some t) (hl : List TT) : ∃ m, E.withTables hl t = .ok m := by
  have ha := ((sound_start E v files).run hp hr).cache k t hk
  exact ha.apply ⟨sameToml_refl t, ha.1⟩ hl

/-! ## A cached file -/

/-- What a request for project `k` with cached tables `t` can be doing. -/
def Phase.Cached (E : StoreEnv) (k : String) (t : AMap Table) (o : Option (List TT)) : Phase → Prop
  | .idle | .begun => True
  | .keyed d => d = k
  | .loaded u => u = some t
  | .done r => ∃ hl t' m, o = some hl ∧ Reordered t t' ∧ E.apply hl t' = .ok m ∧ r = .ok m
  | _ => False

/-- What holds while tables are cached for project `k`. -/
structure Warm (E : StoreEnv) (k : String) (t : AMap Table) (st0 st : CacheState) : Prop where
  cache : st.cache.get? k = some t
  own : ∀ i, (st.procs i).Running → st.own i = st.var
  start : ∀ i, st0.procs i ≠ .idle → st.procs i = st0.procs i
  fresh : ∀ i, st0.procs i = .idle → cacheKey (st.own i) = k → (st.procs i).Cached E k t st.once
  set : ∀ i, st0.procs i = .idle → st.procs i ≠ .idle → st.once.isSome
  key : ∀ i k' t, st.procs i = .storing k' t → k' = cacheKey (st.own i)

theorem Warm.go {E : StoreEnv} {k : String} {t : AMap Table} {st0 st : CacheState}
    (h : Warm E k t st0 st) {i : Nat} {p : Phase} (h0 : st0.procs i = .idle) (hr : (st.procs i).Running)
    (hp : cacheKey st.var = k → p.Cached E k t st.once)
    (hkey : ∀ k' t, p = .storing k' t → k' = cacheKey st.var := by simp) :
    Warm E k t st0 (st.go i p) := by
  have ho := h.own i hr
  refine ⟨h.cache, fun j hj => ?_, fun j hj => ?_, fun j hj hk => ?_, fun j hj hn => ?_,
    fun j k' t hj => ?_⟩
  · simp only [CacheState.go] at hj ⊢
    split at hj
    · subst j; exact ho
    · exact h.own j hj
  · have : j ≠ i := fun e => hj (e ▸ h0)
    simp only [CacheState.go, if_neg this]
    exact h.start j hj
  · by_cases hji : j = i
    · subst hji
      simp only [CacheState.go, if_true] at hk ⊢
      rw [ho] at hk
      exact hp hk
    · simp only [CacheState.go, if_neg hji] at hk ⊢
      exact h.fresh j hj hk
  · by_cases hji : j = i
    · subst hji
      exact h.set j hj (by intro h0; rw [h0] at hr; exact hr)
    · simp only [CacheState.go, if_neg hji] at hn
      exact h.set j hj hn
  · by_cases hji : j = i
    · subst hji
      simp only [CacheState.go, if_true] at hj
      rw [show (st.go j p).own = st.own from rfl, ho]
      exact hkey k' t hj
    · simp only [CacheState.go, if_neg hji] at hj
      exact h.key j k' t hj

theorem Phase.Cached.once {E : StoreEnv} {k : String} {t : AMap Table} {o o' : Option (List TT)} {p : Phase}
    (hp : p.Cached E k t o) (hm : ∀ hl, o = some hl → o' = some hl) : p.Cached E k t o' := by
  cases p with
  | done r =>
    obtain ⟨hl, t', m, h1, h2⟩ := hp
    exact ⟨hl, t', m, hm hl h1, h2⟩
  | _ => exact hp

theorem Warm.begin {E : StoreEnv} {k : String} {t : AMap Table} {st0 st : CacheState}
    (h : Warm E k t st0 st) {i : Nat} (hi : st.procs i = .idle) :
    Warm E k t st0 { st.go i .begun with
      once := some (st.helper E), own := fun j => if j = i then st.var else st.own j } := by
  have h0 : st0.procs i = .idle := by
    by_contra hne
    rw [h.start i hne] at hi
    exact hne hi
  refine ⟨h.cache, fun j hj => ?_, fun j hj => ?_, fun j hj hk => ?_, fun _ _ _ => rfl,
    fun j k' t hj => ?_⟩
  · simp only [CacheState.go] at hj ⊢
    split
    · rfl
    · rename_i hji
      rw [if_neg hji] at hj; exact h.own j hj
  · have : j ≠ i := fun e => hj (e ▸ h0)
    simp only [CacheState.go, if_neg this]
    exact h.start j hj
  · by_cases hji : j = i
    · subst hji
      simp only [CacheState.go, if_true]; trivial
    · simp only [CacheState.go, if_neg hji] at hk ⊢
      exact (h.fresh j hj hk).once fun hl hh => by simp [CacheState.helper, hh]
  · by_cases hji : j = i
    · subst hji
      simp only [CacheState.go, if_true] at hj
      cases hj
    · simp only [CacheState.go, if_neg hji] at hj ⊢
      exact h.key j k' t hj

theorem Warm.step {E : StoreEnv} {k : String} {t : AMap Table} {st0 st st' : CacheState}
    (ha : Accepted E t) (hrest : ∀ i, ¬ (st0.procs i).Running) (h : Warm E k t st0 st) {e : Event}
    (hg : Calm st e) (hs : CStep E Reordered st e st') : Warm E k t st0 st' := by
  have run {i : Nat} {p : Phase} (hi : st.procs i = p) (hp : p.Running) :
      st0.procs i = .idle ∧ (st.procs i).Running := by
    refine ⟨?_, by rw [hi]; exact hp⟩
    by_contra hne
    have := hrest i
    rw [← h.start i hne, hi] at this
    exact this hp
  have fr {i : Nat} {p : Phase} (hi : st.procs i = p) (hp : p.Running) (hk : cacheKey st.var = k) :
      p.Cached E k t st.once := by
    obtain ⟨h0, h1⟩ := run hi hp
    have := h.fresh i h0 (by rw [h.own i h1]; exact hk)
    rw [hi] at this
    exact this
  cases hs with
  | host v => exact ⟨h.cache, fun j hj => absurd hj (hg v rfl j), h.start, h.fresh, h.set, h.key⟩
  | write d0 f0 => exact ⟨h.cache, h.own, h.start, h.fresh, h.set, h.key⟩
  | begin i h1 => exact h.begin h1
  | key i h1 =>
    obtain ⟨a, b⟩ := run h1 trivial
    exact h.go a b fun hk => hk
  | hit i k' u h1 h2 =>
    obtain ⟨a, b⟩ := run h1 trivial
    refine h.go a b fun hk => ?_
    have hk' : k' = k := fr h1 trivial hk
    rw [hk', h.cache] at h2
    exact h2.symm
  | miss i k' h1 h2 =>
    obtain ⟨a, b⟩ := run h1 trivial
    refine h.go a b fun hk => ?_
    have hk' : k' = k := fr h1 trivial hk
    rw [hk', h.cache] at h2
    cases h2
  | probe i h1 =>
    obtain ⟨a, b⟩ := run h1 trivial
    exact h.go a b fun hk => (fr h1 trivial hk).elim
  | absent i d h1 h2 =>
    obtain ⟨a, b⟩ := run h1 trivial
    exact h.go a b fun hk => (fr h1 trivial hk).elim
  | present i d h1 h2 =>
    obtain ⟨a, b⟩ := run h1 trivial
    exact h.go a b fun hk => (fr h1 trivial hk).elim
  | unread i d h1 h2 =>
    obtain ⟨a, b⟩ := run h1 trivial
    exact h.go a b fun hk => (fr h1 trivial hk).elim
  | bad i d s o e h1 h2 h3 h4 =>
    obtain ⟨a, b⟩ := run h1 trivial
    exact h.go a b fun hk => (fr h1 trivial hk).elim
  | read i d s o u h1 h2 h3 h4 =>
    obtain ⟨a, b⟩ := run h1 trivial
    exact h.go a b fun hk => (fr h1 trivial hk).elim
  | mark i u h1 =>
    obtain ⟨a, b⟩ := run h1 trivial
    exact h.go a b (fun hk => (fr h1 trivial hk).elim) fun k' t hk => by
      obtain ⟨rfl, -⟩ := Phase.storing.inj hk
      rfl
  | store i k' u h1 =>
    obtain ⟨a, b⟩ := run h1 trivial
    have hk : cacheKey st.var ≠ k := fun hk => fr h1 trivial hk
    have hk' : k' ≠ k := by
      rw [h.key i k' u h1, h.own i b]
      exact hk
    have := h.go (p := .loaded (some u)) a b fun hk' => absurd hk' hk
    refine ⟨?_, this.own, this.start, this.fresh, this.set, this.key⟩
    simp only [get?_insert_map, if_neg hk']
    exact h.cache
  | plain i h1 =>
    obtain ⟨a, b⟩ := run h1 trivial
    refine h.go a b fun hk => ?_
    have h4 : none = some t := fr h1 trivial hk
    cases h4
  | finish i u u' m h1 h2 h3 =>
    obtain ⟨a, b⟩ := run h1 trivial
    refine h.go a b fun hk => ?_
    have h4 : some u = some t := fr h1 trivial hk
    obtain rfl := Option.some.inj h4
    exact ⟨_, u', m, st.helper_once (h.set i a (by rw [h1]; simp)), h2, h3, rfl⟩
  | panic i u u' e h1 h2 h3 =>
    obtain ⟨a, b⟩ := run h1 trivial
    refine h.go a b fun hk => ?_
    have h4 : some u = some t := fr h1 trivial hk
    obtain rfl := Option.some.inj h4
    obtain ⟨r, hr⟩ := ha.apply h2 (st.helper E)
    rw [hr] at h3; cases h3

/-- C39.  Once the tables of a project are cached they stay, whatever happens to the
file: every later request for the project succeeds with them. -/
theorem C39_no_reload {E : StoreEnv} (hp : ∀ s t, E.parse s = some t → UniqToml t) {v : Option String}
    {files : String → FileState} {h0 h : List Event} {st0 st : CacheState}
    (hr0 : CRun E Reordered Calm (.start v files) h0 st0) (hrest : ∀ i, ¬ (st0.procs i).Running)
    {k : String} {t : AMap Table} (hc : st0.cache.get? k = some t)
    (hr : CRun E Reordered Calm st0 h st) :
    st.cache.get? k = some t ∧
    ∀ i r, st0.procs i = .idle → projectDir (st.own i) = k → st.procs i = .done r →
      ∃ hl t' m, st.once = some hl ∧ Reordered t t' ∧ E.withTables hl t' = .ok m ∧ r = .ok m := by
  have ha := ((sound_start E v files).run hp hr0).cache k t hc
  have hw : Warm E k t st0 st := by
    clear hr0
    induction hr with
    | nil =>
      refine ⟨hc, fun i hi => absurd hi (hrest i), fun _ _ => rfl, fun i hi _ => ?_,
        fun i hi hn => absurd hi hn,
        fun i k' t hi => absurd (show (st0.procs i).Running by rw [hi]; trivial) (hrest i)⟩
      rw [hi]; trivial
    | snoc _ hg hs ih => exact ih.step ha hrest hg hs
  refine ⟨hw.cache, fun i r hi hk hd => ?_⟩
  have := hw.fresh i hi ((cacheKey_eq _).trans hk)
  rw [hd] at this
  exact this

/-! ## Examples -/

section
open Ex

/-- A process in which the text `A` is a file with a table `[x]`, the text `E` one with a
table `[empty]`, and nothing else parses. -/
def Ex.senv : StoreEnv where
  toml := Ex.tenv
  crates := fun v n => if v = some "b" ∧ n = "hooq" then some (.name "my-hooq") else none
  ft := ⟨false, false, false, false⟩
  parse := fun s => if s = "A" then some [("x", .mk {} [])]
    else if s = "E" then some [("empty", .mk {} [])] else none

theorem Ex.senv_uniq : ∀ s t, senv.parse s = some t → UniqToml t := by
  intro s t h
  simp only [senv] at h
  split at h
  · obtain rfl := Option.some.inj h; simp [UniqToml, AMap.keys, TablesUniq, Table.Uniq]
  · split at h
    · obtain rfl := Option.some.inj h; simp [UniqToml, AMap.keys, TablesUniq, Table.Uniq]
    · cases h

/-- Project `a` has a file, all others have none. -/
def Ex.disk : String → FileState := fun d => if d = "a" then .text "A" else .absent

theorem Ex.order_id {s : String} : ∀ t, senv.parse s = some t → Reordered t (id t) :=
  fun t ht => ⟨sameToml_refl t, senv_uniq s t ht⟩

/-- The history of `Ex.loadA`: request 0 loads the file of project `a`. -/
theorem Ex.loadA (G : CacheState → Event → Prop) (hG : ∀ st e, (∀ v, e ≠ .host v) → G st e) :
    ∃ h st, CRun senv Reordered G (.start (some "a") disk) h st ∧
      st.procs 0 = .checked [("x", .mk {} [])] ∧ (∀ i, i ≠ 0 → st.procs i = .idle) ∧
      st.var = some "a" ∧ st.cache = [] ∧ st.own 0 = some "a" ∧ st.files = disk := by
  have s0 := CRun.snoc (G := G) .nil (hG _ _ (by simp))
    (CStep.begin (E := senv) (Same := Reordered) (.start (some "a") disk) 0 rfl)
  have s0 := CRun.snoc s0 (hG _ _ (by simp)) (CStep.key _ 0 rfl)
  have s1 := CRun.snoc s0 (hG _ _ (by simp)) (CStep.miss _ 0 "a" rfl rfl)
  have s2 := CRun.snoc s1 (hG _ _ (by simp)) (CStep.probe _ 0 rfl)
  have s3 := CRun.snoc s2 (hG _ _ (by simp)) (CStep.present _ 0 "a" rfl (by
    show disk "a" ≠ .absent
    simp [disk]))
  have s4 := CRun.snoc s3 (hG _ _ (by simp)) (CStep.read _ 0 "a" "A" id [("x", .mk {} [])] rfl rfl order_id rfl)
  refine ⟨_, _, s4, rfl, fun i hi => ?_, rfl, rfl, rfl, rfl⟩
  simp [CacheState.go, CacheState.start, hi]

/-- C39 fails when the host changes the environment variable during a request: project
`b` has no `hooq.toml` at any time, but gets the flavor `x` of project `a`. -/
theorem C39_mixup : ∃ h st m, CRun senv Reordered Free (.start (some "a") disk) h st ∧
    (∀ f, .write "b" f ∉ h) ∧ disk "b" = .absent ∧ st.own 1 = some "b" ∧
    st.procs 1 = .done (.ok m) ∧ (getFlavor m ["x"]).isOk = true ∧
    (getFlavor (senv.presets []) ["x"]).isOk = false := by
  have s0 := CRun.snoc (G := Free) .nil trivial
    (CStep.begin (E := senv) (Same := Reordered) (.start (some "a") disk) 0 rfl)
  have s0 := CRun.snoc s0 trivial (CStep.key _ 0 rfl)
  have s1 := CRun.snoc s0 trivial (CStep.miss _ 0 "a" rfl rfl)
  have s2 := CRun.snoc s1 trivial (CStep.probe _ 0 rfl)
  have s3 := CRun.snoc s2 trivial (CStep.present _ 0 "a" rfl (by
    show disk "a" ≠ .absent
    simp [disk]))
  have s4 := CRun.snoc s3 trivial (CStep.read _ 0 "a" "A" id [("x", .mk {} [])] rfl rfl order_id rfl)
  have s5 := CRun.snoc s4 trivial (CStep.host _ (some "b"))
  have s6 := CRun.snoc s5 trivial (CStep.mark _ 0 _ rfl)
  have s6 := CRun.snoc s6 trivial (CStep.store _ 0 _ _ rfl)
  have s7 := CRun.snoc s6 trivial (CStep.begin _ 1 rfl)
  have s7 := CRun.snoc s7 trivial (CStep.key _ 1 rfl)
  have s7 := CRun.snoc s7 trivial (CStep.hit _ 1 "b" [("x", .mk {} [])] rfl rfl)
  have s8 := CRun.snoc s7 trivial (CStep.finish _ 1 [("x", .mk {} [])] [("x", .mk {} [])] _ rfl
    ⟨sameToml_refl _, senv_uniq "A" _ rfl⟩ rfl)
  exact ⟨_, _, _, s8, by simp, rfl, rfl, rfl, rfl, rfl⟩

theorem Ex.templates_differ :
    (Method.parse senv.toml.consume (defaultMethodTokens (tkAbs ["hooq", "source_excerpt_helpers"]))).template ≠
    (Method.parse senv.toml.consume (defaultMethodTokens (tkAbs ["my_hooq", "source_excerpt_helpers"]))).template := by
  simp [Method.parse, enteredAll, TT.entered, senv, tenv, splitTailExclamation, defaultMethodTokens, presetHead, tkAbs, tkLet, tkVar,
    tkParen, tkBrace, tkP, tkId, tkStr, Method.template]

/-- C53 is not what a project needs: project `b`, which knows the crate under the name
`my-hooq`, gets presets that name it `hooq`, because the first request was for `a`. -/
theorem C53_wrong_project : ∃ h st m, CRun senv Reordered Calm (.start (some "a") fun _ => .absent) h st ∧
    st.own 1 = some "b" ∧ st.procs 1 = .done (.ok m) ∧
    m = senv.presets (tkAbs ["hooq", "source_excerpt_helpers"]) ∧
    senv.helpers (some "b") = tkAbs ["my_hooq", "source_excerpt_helpers"] ∧
    (m.get? "default").map (fun f => f.settings.method.template) ≠
      ((senv.presets (senv.helpers (some "b"))).get? "default").map fun f => f.settings.method.template := by
  have calm : ∀ {st : CacheState} {e : Event}, (∀ v, e ≠ .host v) → Calm st e :=
    fun he v hv => absurd hv (he v)
  have s1 := CRun.snoc (G := Calm) .nil (calm (by simp))
    (CStep.begin (E := senv) (Same := Reordered) (.start (some "a") fun _ => .absent) 0 rfl)
  have s1 := CRun.snoc s1 (calm (by simp)) (CStep.key _ 0 rfl)
  have s1 := CRun.snoc s1 (calm (by simp)) (CStep.miss _ 0 "a" rfl rfl)
  have s1 := CRun.snoc s1 (calm (by simp)) (CStep.probe _ 0 rfl)
  have s1 := CRun.snoc s1 (calm (by simp)) (CStep.absent _ 0 "a" rfl rfl)
  have s1 := CRun.snoc s1 (calm (by simp)) (CStep.plain _ 0 rfl)
  have s2 := CRun.snoc s1 (fun v hv i => by
    by_cases hi : i = 0 <;> simp [CacheState.go, CacheState.start, hi, Phase.Running])
    (CStep.host _ (some "b"))
  have s2 := CRun.snoc s2 (calm (by simp)) (CStep.begin _ 1 rfl)
  have s2 := CRun.snoc s2 (calm (by simp)) (CStep.key _ 1 rfl)
  have s2 := CRun.snoc s2 (calm (by simp)) (CStep.miss _ 1 "b" rfl rfl)
  have s2 := CRun.snoc s2 (calm (by simp)) (CStep.probe _ 1 rfl)
  have s2 := CRun.snoc s2 (calm (by simp)) (CStep.absent _ 1 "b" rfl rfl)
  have s2 := CRun.snoc s2 (calm (by simp)) (CStep.plain _ 1 rfl)
  refine ⟨_, _, _, s2, rfl, rfl, rfl, rfl, ?_⟩
  intro he
  have he := Option.some.inj he
  exact Ex.templates_differ he

/-- The hypotheses of C39: a calm history in which a request for project `a` succeeds, and
one in which its tables are cached at rest. -/
example : ∃ h st m, CRun senv Reordered Calm (.start (some "a") disk) h st ∧
    st.procs 0 = .done (.ok m) ∧ (getFlavor m ["x"]).isOk = true ∧
    st.cache.get? "a" = some [("x", .mk {} [])] ∧ ∀ i, ¬ (st.procs i).Running := by
  obtain ⟨h, st, hr, h1, h2, h3, h4, h5, h6⟩ := Ex.loadA Calm (fun st e he v hv => absurd hv (he v))
  have s5 := CRun.snoc hr (fun v hv => by cases hv) (CStep.mark _ 0 _ h1)
  have s5 := CRun.snoc s5 (fun v hv => by cases hv) (CStep.store _ 0 _ _ rfl)
  have s6 := CRun.snoc s5 (fun v hv => by cases hv)
    (CStep.finish _ 0 [("x", .mk {} [])] [("x", .mk {} [])] _ rfl ⟨sameToml_refl _, senv_uniq "A" _ rfl⟩ rfl)
  refine ⟨_, _, _, s6, rfl, rfl, ?_, fun i => ?_⟩
  · simp [CacheState.go, h3, h4, cacheKey, AMap.insert, AMap.get?]
  · by_cases hi : i = 0
    · subst hi; exact id
    · simp only [CacheState.go, if_neg hi, h2 i hi]; exact id

/-- The hypotheses of `C40_broken`: a file that sets the flavor `empty`. -/
example : ∃ h st r, BrokenFile senv "a" (.text "E") (.apply .overrideEmpty) ∧
    CRun senv Reordered (fun st e => Calm st e ∧ Fixed "a" e) (.start (some "a") fun _ => .text "E") h st ∧
    st.procs 0 = .done r := by
  have s0 := CRun.snoc (G := fun st e => Calm st e ∧ Fixed "a" e) .nil
    ⟨fun v hv => (by cases hv), fun f hf => (by cases hf)⟩
    (CStep.begin (E := senv) (Same := Reordered) (.start (some "a") fun _ => .text "E") 0 rfl)
  have s0 := CRun.snoc s0 ⟨fun v hv => (by cases hv), fun f hf => (by cases hf)⟩ (CStep.key _ 0 rfl)
  have s1 := CRun.snoc s0 ⟨fun v hv => (by cases hv), fun f hf => (by cases hf)⟩ (CStep.miss _ 0 "a" rfl rfl)
  have s2 := CRun.snoc s1 ⟨fun v hv => (by cases hv), fun f hf => (by cases hf)⟩ (CStep.probe _ 0 rfl)
  have s3 := CRun.snoc s2 ⟨fun v hv => (by cases hv), fun f hf => (by cases hf)⟩
    (CStep.present _ 0 "a" rfl (by show FileState.text "E" ≠ .absent; simp))
  have s4 := CRun.snoc s3 ⟨fun v hv => (by cases hv), fun f hf => (by cases hf)⟩
    (CStep.bad _ 0 "a" "E" id (.apply .overrideEmpty) rfl rfl order_id rfl)
  exact ⟨_, _, _, .unusable "E" [("empty", .mk {} [])] [("empty", .mk {} [])] [] _ rfl
    ⟨sameToml_refl _, senv_uniq "E" _ rfl⟩ rfl, s4, rfl⟩

end

end Hooq
