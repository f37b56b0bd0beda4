import Verif.Spec.Cache
import Verif.Props.Toml

/-!
# Invariants of the cache
-/

namespace Hooq

/-! ## Acceptance of a file does not depend on the flavors it is applied to -/

theorem applyFields_any {env : TomlEnv} {t : TableFields} {s r : Settings} (s' : Settings)
    (h : applyFields env t s = .ok r) : ∃ r', applyFields env t s' = .ok r' := by
  simp only [applyFields] at h ⊢
  obtain ⟨a, h1, h⟩ := except_bind_ok h
  obtain ⟨b, h2, h⟩ := except_bind_ok h
  obtain ⟨c, h3, h⟩ := except_bind_ok h
  obtain ⟨d, h4, h⟩ := except_bind_ok h
  have g2 : ∃ b', fieldMethod env t.method s'.method = .ok b' := by
    simp only [fieldMethod] at h2 ⊢
    split
    · rename_i m hm
      simp only [hm] at h2
      split
      · exact ⟨_, rfl⟩
      · rename_i hl; simp [hl] at h2
    · exact ⟨_, rfl⟩
  have g3 : ∃ c', fieldTargets t.hookTargets s'.targets = .ok c' := by
    simp only [fieldTargets] at h3 ⊢
    split
    · rename_i m hm
      simp only [hm] at h3
      split
      · exact ⟨_, rfl⟩
      · rename_i hl; simp [hl] at h3
    · exact ⟨_, rfl⟩
  have g4 : ∃ d', fieldBindings env t.bindings s'.bindings = .ok d' := by
    simp only [fieldBindings] at h4 ⊢
    split
    · exact ⟨_, rfl⟩
    · rename_i hl; simp [hl] at h4
  obtain ⟨b', g2⟩ := g2
  obtain ⟨c', g3⟩ := g3
  obtain ⟨d', g4⟩ := g4
  simp only [h1, g2, g3, g4, bind, Except.bind]
  exact ⟨_, rfl⟩

mutual
theorem applyTable_any {env : TomlEnv} : ∀ (t : Table) {f r : Flavor} (g : Flavor),
    applyTable env f t = .ok r → ∃ r', applyTable env g t = .ok r'
  | .mk fields subs, f, r, g, h => by
    simp only [applyTable] at h ⊢
    obtain ⟨s, h1, h⟩ := except_bind_ok h
    obtain ⟨u, h2, h⟩ := except_bind_ok h
    obtain ⟨s', g1⟩ := applyFields_any g.settings h1
    obtain ⟨u', g2⟩ := updateFlavors_any subs g.subs (.mk s' g.subs) h2
    simp only [g1, g2, bind, Except.bind]
    exact ⟨_, rfl⟩
theorem updateFlavors_any {env : TomlEnv} : ∀ (ts : List (String × Table)) {m r : FlavorMap} {base : Flavor}
    (m2 : FlavorMap) (base2 : Flavor), updateFlavors env m base ts = .ok r →
    ∃ r', updateFlavors env m2 base2 ts = .ok r'
  | [], m, r, base, m2, base2, h => ⟨m2, by simp [updateFlavors]⟩
  | (n, t) :: rest, m, r, base, m2, base2, h => by
    simp only [updateFlavors] at h ⊢
    split at h
    · simp at h
    · rename_i hn
      rw [if_neg hn]
      split at h
      · simp at h
      · rename_i hn
        rw [if_neg hn]
        obtain ⟨f, h1, h⟩ := except_bind_ok h
        obtain ⟨f', g1⟩ := applyTable_any t ((m2.get? n).getD base2) h1
        obtain ⟨r', g2⟩ := updateFlavors_any rest (m2.insert n f') base2 h
        simp only [g1, bind, Except.bind]
        exact ⟨r', g2⟩
end

/-- The tables can be applied. -/
def Accepted (E : StoreEnv) (t : AMap Table) : Prop := UniqToml t ∧ ∃ hl r, E.apply hl t = .ok r

theorem Accepted.apply {E : StoreEnv} {t t' : AMap Table} (h : Accepted E t) (ht : Reordered t t')
    (hl : List TT) : ∃ r, E.apply hl t' = .ok r := by
  obtain ⟨hu, h0, r, h⟩ := h
  obtain ⟨r1, h1⟩ := updateFlavors_any t (E.presets hl) (.mk (defaultSettings E.toml.consume hl) []) h
  rcases C36_order (env := E.toml) (dflt := defaultSettings E.toml.consume hl)
    (m := E.presets hl) ht.1 hu ht.2 with ⟨⟨e, h2⟩, -⟩ | ⟨a, b, -, h2, -⟩
  · simp only [applyToml] at h2; rw [h1] at h2; cases h2
  · exact ⟨b, h2⟩

theorem sameToml_refl (t : AMap Table) : SameToml t t := by
  intro path
  cases tableAt t path with
  | none => exact .none
  | some t => exact .some ⟨rfl, rfl, rfl, rfl, rfl, rfl, rfl, fun _ => rfl⟩

theorem Accepted.of_check {E : StoreEnv} (hp : ∀ s t, E.parse s = some t → UniqToml t) {hl : List TT}
    {dir s : String} {order : AMap Table → AMap Table} {t : AMap Table}
    (ho : ∀ t, E.parse s = some t → Reordered t (order t)) (h : E.check hl dir s order = .ok t) :
    E.parse s = some t ∧ Accepted E t := by
  simp only [StoreEnv.check] at h
  split at h
  · simp at h
  · rename_i t1 h1
    split at h
    · simp at h
    · rename_i r h2
      obtain rfl := Except.ok.inj h
      refine ⟨h1, hp _ _ h1, hl, ?_⟩
      rcases C36_order (env := E.toml) (dflt := defaultSettings E.toml.consume hl)
        (m := E.presets hl) (ho _ h1).1 (hp _ _ h1) (ho _ h1).2 with ⟨-, e, h3⟩ | ⟨a, b, h3, -, -⟩
      · simp only [StoreEnv.apply] at h2; rw [h2] at h3; cases h3
      · exact ⟨a, h3⟩

/-! ## All executions -/

/-- What a request holds is accepted, and none has panicked. -/
def Phase.Sound (E : StoreEnv) : Phase → Prop
  | .checked t | .storing _ t | .loaded (some t) => Accepted E t
  | .panicked => False
  | _ => True

/-- Nothing unusable is ever held. -/
structure Sound (E : StoreEnv) (st : CacheState) : Prop where
  cache : ∀ k t, st.cache.get? k = some t → Accepted E t
  procs : ∀ i, (st.procs i).Sound E

theorem Sound.go {E : StoreEnv} {st : CacheState} (h : Sound E st) {i : Nat} {p : Phase} (hp : p.Sound E) :
    Sound E (st.go i p) := by
  refine ⟨h.cache, fun j => ?_⟩
  simp only [CacheState.go]
  split
  · exact hp
  · exact h.procs j

theorem get?_insert_map {α : Type} (m : AMap α) (k : String) (v : α) (k' : String) :
    (AMap.insert m k v).get? k' = if k = k' then some v else m.get? k' := by
  induction m with
  | nil => simp only [AMap.insert, AMap.get?]
  | cons x m ih =>
    obtain ⟨a, b⟩ := x
    simp only [AMap.insert]
    by_cases h : a = k
    · subst h
      rw [if_pos rfl]
      simp only [AMap.get?]
      by_cases h' : a = k'
      · rw [if_pos h', if_pos h']
      · rw [if_neg h', if_neg h', if_neg h']
    · rw [if_neg h]
      simp only [AMap.get?, ih]
      by_cases h' : a = k'
      · subst h'; rw [if_pos rfl, if_pos rfl, if_neg (Ne.symm h)]
      · rw [if_neg h', if_neg h']

theorem Sound.step {E : StoreEnv} (hp : ∀ s t, E.parse s = some t → UniqToml t) {st st' : CacheState}
    {e : Event} (h : Sound E st) (hs : CStep E Reordered st e st') : Sound E st' := by
  cases hs with
  | host v => exact ⟨h.cache, h.procs⟩
  | write d f => exact ⟨h.cache, h.procs⟩
  | begin i h1 =>
    have := h.go (i := i) (p := .begun) trivial
    exact ⟨this.cache, this.procs⟩
  | key i h1 => exact h.go trivial
  | hit i k t h1 h2 => exact h.go (h.cache _ _ h2)
  | miss i k h1 h2 => exact h.go trivial
  | probe i h1 => exact h.go trivial
  | absent i d h1 h2 => exact h.go trivial
  | present i d h1 h2 => exact h.go trivial
  | unread i d h1 h2 => exact h.go trivial
  | bad i d s o e h1 h2 h3 h4 => exact h.go trivial
  | read i d s o t h1 h2 h3 h4 => exact h.go (Accepted.of_check hp h3 h4).2
  | mark i t h1 =>
    have ha : Accepted E t := by have := h.procs i; rw [h1] at this; exact this
    exact h.go ha
  | store i k t h1 =>
    have ha : Accepted E t := by have := h.procs i; rw [h1] at this; exact this
    have := h.go (i := i) (p := .loaded (some t)) ha
    refine ⟨fun k' u hk => ?_, this.procs⟩
    simp only [get?_insert_map] at hk
    split at hk
    · obtain rfl := Option.some.inj hk; exact ha
    · exact h.cache _ _ hk
  | plain i h1 => exact h.go trivial
  | finish i t t' m h1 h2 h3 => exact h.go trivial
  | panic i t t' e h1 h2 h3 =>
    have ha : Accepted E t := by have := h.procs i; rw [h1] at this; exact this
    obtain ⟨r, hr⟩ := ha.apply h2 (st.helper E)
    rw [hr] at h3; cases h3

theorem Sound.run {E : StoreEnv} (hp : ∀ s t, E.parse s = some t → UniqToml t)
    {G : CacheState → Event → Prop} {st0 st : CacheState} {h : List Event} (h0 : Sound E st0)
    (hr : CRun E Reordered G st0 h st) : Sound E st := by
  induction hr with
  | nil => exact h0
  | snoc _ _ hs ih => exact ih.step hp hs

theorem sound_start (E : StoreEnv) (v : Option String) (files : String → FileState) :
    Sound E (.start v files) :=
  ⟨fun _ _ h => by simp [CacheState.start, AMap.get?] at h, fun _ => trivial⟩

/-! ## Histories -/

theorem fileNow_append (f0 : FileState) (dir : String) (a b : List Event) :
    fileNow f0 dir (a ++ b) = fileNow (fileNow f0 dir a) dir b := by
  induction a generalizing f0 with
  | nil => rfl
  | cons e a ih => cases e <;> simp [fileNow, ih]

theorem lastStore_append (o : Option (AMap Table)) (k : String) (a b : List Event) :
    lastStore o k (a ++ b) = lastStore (lastStore o k a) k b := by
  induction a generalizing o with
  | nil => rfl
  | cons e a ih => cases e <;> simp [lastStore, ih]

theorem ReadBy.mono {E : StoreEnv} {files : String → FileState} {h : List Event} {j : Nat} {k : String}
    {t : AMap Table} (hr : ReadBy E files h j k t) (x : List Event) : ReadBy E files (h ++ x) j k t := by
  obtain ⟨h1, s, h2, rfl, a, b⟩ := hr
  exact ⟨h1, s, h2 ++ x, by simp, a, b⟩

theorem ComesFrom.mono {E : StoreEnv} {files : String → FileState} {h : List Event} {j : Nat} {k : String}
    {t : AMap Table} (hr : ComesFrom E files h j k t) (x : List Event) :
    ComesFrom E files (h ++ x) j k t := by
  rcases hr with hr | ⟨h1, h2, i, rfl, a, b⟩
  · exact .inl (hr.mono x)
  · exact .inr ⟨h1, h2 ++ x, i, by simp, a, b⟩

theorem varNow_append (v : Option String) (a b : List Event) :
    varNow v (a ++ b) = varNow (varNow v a) b := by
  induction a generalizing v with
  | nil => rfl
  | cons e a ih => cases e <;> simp [varNow, ih]

theorem firstVar_append (v : Option String) (a b : List Event) :
    firstVar v (a ++ b) = (firstVar v a).or (firstVar (varNow v a) b) := by
  induction a generalizing v with
  | nil => rfl
  | cons e a ih => cases e <;> simp [varNow, firstVar, ih]

/-- The name of the helper crate after a history. -/
structure Once (E : StoreEnv) (v : Option String) (h : List Event) (st : CacheState) : Prop where
  var : st.var = varNow v h
  once : st.once = (firstVar v h).map E.helpers
  set : ∀ i, st.procs i ≠ .idle → st.once.isSome

theorem Once.go {E : StoreEnv} {v : Option String} {h : List Event} {st : CacheState}
    (ho : Once E v h st) {e : Event} {i : Nat} {p : Phase} (hi : st.procs i ≠ .idle)
    (hv : ∀ w, varNow w [e] = w) (hf : ∀ w, firstVar w [e] = none) :
    Once E v (h ++ [e]) (st.go i p) := by
  refine ⟨?_, ?_, fun j hj => ?_⟩
  · rw [varNow_append, hv]; exact ho.var
  · rw [firstVar_append, hf, Option.or_none]; exact ho.once
  · by_cases hji : j = i
    · exact ho.set i hi
    · simp only [CacheState.go, if_neg hji] at hj
      exact ho.set j hj

theorem Once.step {E : StoreEnv} {Same : AMap Table → AMap Table → Prop} {v : Option String}
    {h : List Event} {st st' : CacheState} (ho : Once E v h st) {e : Event}
    (hs : CStep E Same st e st') : Once E v (h ++ [e]) st' := by
  have ni {i : Nat} {p : Phase} (hi : st.procs i = p) (hp : p ≠ .idle) : st.procs i ≠ .idle := by
    rw [hi]; exact hp
  cases hs with
  | host w =>
    refine ⟨by rw [varNow_append]; rfl, ?_, ho.set⟩
    rw [firstVar_append]; simp only [firstVar, Option.or_none]; exact ho.once
  | write d f =>
    refine ⟨by rw [varNow_append]; exact ho.var, ?_, ho.set⟩
    rw [firstVar_append]; simp only [firstVar, Option.or_none]; exact ho.once
  | begin i h1 =>
    refine ⟨by rw [varNow_append]; exact ho.var, ?_, fun _ _ => rfl⟩
    rw [firstVar_append]
    simp only [firstVar, CacheState.helper, ho.once]
    cases hf : firstVar v h with
    | none => simp [ho.var]
    | some w => simp
  | key i h1 => exact ho.go (ni h1 (by simp)) (fun _ => rfl) fun _ => rfl
  | hit i k t h1 h2 => exact ho.go (ni h1 (by simp)) (fun _ => rfl) fun _ => rfl
  | miss i k h1 h2 => exact ho.go (ni h1 (by simp)) (fun _ => rfl) fun _ => rfl
  | probe i h1 => exact ho.go (ni h1 (by simp)) (fun _ => rfl) fun _ => rfl
  | absent i d h1 h2 => exact ho.go (ni h1 (by simp)) (fun _ => rfl) fun _ => rfl
  | present i d h1 h2 => exact ho.go (ni h1 (by simp)) (fun _ => rfl) fun _ => rfl
  | unread i d h1 h2 => exact ho.go (ni h1 (by simp)) (fun _ => rfl) fun _ => rfl
  | bad i d s o e h1 h2 h3 h4 => exact ho.go (ni h1 (by simp)) (fun _ => rfl) fun _ => rfl
  | read i d s o t h1 h2 h3 h4 => exact ho.go (ni h1 (by simp)) (fun _ => rfl) fun _ => rfl
  | mark i t h1 => exact ho.go (ni h1 (by simp)) (fun _ => rfl) fun _ => rfl
  | store i k t h1 =>
    have := ho.go (e := .store i k t) (p := .loaded (some t)) (ni h1 (by simp)) (fun _ => rfl) fun _ => rfl
    exact ⟨this.var, this.once, this.set⟩
  | plain i h1 => exact ho.go (ni h1 (by simp)) (fun _ => rfl) fun _ => rfl
  | finish i t t' m h1 h2 h3 => exact ho.go (ni h1 (by simp)) (fun _ => rfl) fun _ => rfl
  | panic i t t' e h1 h2 h3 => exact ho.go (ni h1 (by simp)) (fun _ => rfl) fun _ => rfl

theorem Once.run {E : StoreEnv} {Same : AMap Table → AMap Table → Prop}
    {G : CacheState → Event → Prop} {v : Option String} {files : String → FileState}
    {h : List Event} {st : CacheState} (hr : CRun E Same G (.start v files) h st) : Once E v h st := by
  induction hr with
  | nil => exact ⟨rfl, rfl, fun _ h => absurd rfl h⟩
  | snoc _ _ hs ih => exact ih.step hs

/-- What is known about a request in each phase; `v` is its project, `o` the name of the
helper crate. -/
def Phase.Track (E : StoreEnv) (files : String → FileState) (h : List Event) (i : Nat) (v : Option String)
    (o : Option (List TT)) : Phase → Prop
  | .idle | .begun | .missed | .panicked | .done (.error _) => True
  | .keyed d | .probing d | .reading d => d = cacheKey v
  | .checked t => ReadBy E files h i (cacheKey v) t
  | .storing d t => d = cacheKey v ∧ ReadBy E files h i (cacheKey v) t
  | .loaded none => .absent i (cacheKey v) ∈ h
  | .loaded (some t) => ComesFrom E files h i (cacheKey v) t
  | .done (.ok m) => ∃ hl, o = some hl ∧ ((.absent i (cacheKey v) ∈ h ∧ m = E.presets hl) ∨
      ∃ t t', ComesFrom E files h i (cacheKey v) t ∧ Reordered t t' ∧ E.apply hl t' = .ok m)

theorem Phase.Track.mono {E : StoreEnv} {files : String → FileState} {h : List Event} {i : Nat}
    {v : Option String} {o : Option (List TT)} {p : Phase} (hp : p.Track E files h i v o) (x : List Event) :
    p.Track E files (h ++ x) i v o := by
  cases p with
  | idle | begun | missed | panicked => trivial
  | keyed d | probing d | reading d => exact hp
  | checked t => exact ReadBy.mono hp x
  | storing d t => exact ⟨hp.1, hp.2.mono x⟩
  | loaded t =>
    cases t with
    | none => exact List.mem_append_left x hp
    | some t => exact ComesFrom.mono hp x
  | done r =>
    cases r with
    | error e => trivial
    | ok m =>
      rcases hp with ⟨hl, ho, ⟨a, b⟩ | ⟨t, t', a, b, c⟩⟩
      · exact ⟨hl, ho, .inl ⟨List.mem_append_left x a, b⟩⟩
      · exact ⟨hl, ho, .inr ⟨t, t', a.mono x, b, c⟩⟩

/-- What holds after a history in which the environment variable is changed only at
rest. -/
structure Track (E : StoreEnv) (files : String → FileState) (h : List Event) (st : CacheState) : Prop where
  disk : ∀ d, st.files d = fileNow (files d) d h
  cache : ∀ k, st.cache.get? k = lastStore none k h
  origin : ∀ k t, st.cache.get? k = some t → ∃ j, ReadBy E files h j k t
  own : ∀ i, (st.procs i).Running → st.own i = st.var
  procs : ∀ i, (st.procs i).Track E files h i (st.own i) st.once
  set : ∀ i, st.procs i ≠ .idle → st.once.isSome

theorem Phase.Track.once {E : StoreEnv} {files : String → FileState} {h : List Event} {i : Nat}
    {v : Option String} {o o' : Option (List TT)} {p : Phase} (hp : p.Track E files h i v o)
    (hm : ∀ hl, o = some hl → o' = some hl) : p.Track E files h i v o' := by
  cases p with
  | idle | begun | missed | panicked => trivial
  | keyed d | probing d | reading d | checked t | storing d t => exact hp
  | loaded t =>
    cases t with
    | none => exact hp
    | some t => exact hp
  | done r =>
    cases r with
    | error e => trivial
    | ok m =>
      obtain ⟨hl, ho, hp⟩ := hp
      exact ⟨hl, hm hl ho, hp⟩

theorem CacheState.helper_once {E : StoreEnv} {st : CacheState} (h : st.once.isSome) :
    st.once = some (st.helper E) := by
  obtain ⟨hl, hl'⟩ := Option.isSome_iff_exists.1 h
  simp [CacheState.helper, hl']

theorem Track.go {E : StoreEnv} {files : String → FileState} {h : List Event} {st : CacheState}
    (ht : Track E files h st) {e : Event} {i : Nat} {p : Phase}
    (he : ∀ d (f : FileState), fileNow f d [e] = f) (he2 : ∀ k o, lastStore o k [e] = o)
    (hr : (st.procs i).Running)
    (hp : st.own i = st.var → p.Track E files (h ++ [e]) i st.var st.once) :
    Track E files (h ++ [e]) (st.go i p) := by
  refine ⟨fun d => ?_, fun k => ?_, fun k t hk => ?_, fun j hj => ?_, fun j => ?_, fun j hj => ?_⟩
  · rw [fileNow_append, he]; exact ht.disk d
  · rw [lastStore_append, he2]; exact ht.cache k
  · obtain ⟨j, hj⟩ := ht.origin k t hk
    exact ⟨j, hj.mono _⟩
  · simp only [CacheState.go] at hj ⊢
    split at hj
    · subst j; exact ht.own i hr
    · exact ht.own j hj
  · simp only [CacheState.go]
    split
    · subst j; rw [ht.own i hr]; exact hp (ht.own i hr)
    · exact (ht.procs j).mono _
  · by_cases hji : j = i
    · exact ht.set i (by intro h0; rw [h0] at hr; exact hr)
    · simp only [CacheState.go, if_neg hji] at hj
      exact ht.set j hj

theorem Track.step {E : StoreEnv} (hp : ∀ s t, E.parse s = some t → UniqToml t)
    {files : String → FileState} {h : List Event} {st st' : CacheState}
    (ht : Track E files h st) {e : Event} (hc : Calm st e) (hs : CStep E Reordered st e st') :
    Track E files (h ++ [e]) st' := by
  have run {i : Nat} {p : Phase} (hi : st.procs i = p) (hp : p.Running) : (st.procs i).Running := by
    rw [hi]; exact hp
  have one {i : Nat} {p : Phase} (hi : st.procs i = p) (hp : p ≠ .idle) :
      st.once = some (st.helper E) := st.helper_once (ht.set i (by rw [hi]; exact hp))
  have tr {i : Nat} {p : Phase} (hi : st.procs i = p) (ho : st.own i = st.var) :
      p.Track E files h i st.var st.once := by
    have := ht.procs i
    rw [hi, ho] at this; exact this
  cases hs with
  | host v =>
    refine ⟨fun d => ?_, fun k => ?_, fun k t hk => ?_, fun j hj => ?_, fun j => ?_, ht.set⟩
    · rw [fileNow_append]; exact ht.disk d
    · rw [lastStore_append]; exact ht.cache k
    · obtain ⟨j, hj⟩ := ht.origin k t hk
      exact ⟨j, hj.mono _⟩
    · exact absurd hj (hc v rfl j)
    · exact (ht.procs j).mono _
  | write d0 f =>
    refine ⟨fun d => ?_, fun k => ?_, fun k t hk => ?_, fun j hj => ?_, fun j => ?_, ht.set⟩
    · rw [fileNow_append]
      simp only [fileNow, ← ht.disk d]
      by_cases hd : d = d0
      · rw [if_pos hd, if_pos hd.symm]
      · rw [if_neg hd, if_neg (Ne.symm hd)]
    · rw [lastStore_append]; exact ht.cache k
    · obtain ⟨j, hj⟩ := ht.origin k t hk
      exact ⟨j, hj.mono _⟩
    · exact ht.own j hj
    · exact (ht.procs j).mono _
  | begin i h1 =>
    refine ⟨fun d => ?_, fun k => ?_, fun k t hk => ?_, fun j hj => ?_, fun j => ?_, fun _ _ => rfl⟩
    · rw [fileNow_append]; exact ht.disk d
    · rw [lastStore_append]; exact ht.cache k
    · obtain ⟨j, hj⟩ := ht.origin k t hk
      exact ⟨j, hj.mono _⟩
    · simp only [CacheState.go] at hj ⊢
      split
      · rfl
      · rename_i hji
        rw [if_neg hji] at hj; exact ht.own j hj
    · simp only [CacheState.go]
      split
      · trivial
      · refine ((ht.procs j).mono _).once fun hl hh => ?_
        simp [CacheState.helper, hh]
  | key i h1 => exact ht.go (fun _ _ => rfl) (fun _ _ => rfl) (run h1 trivial) fun _ => rfl
  | hit i k t h1 h2 =>
    refine ht.go (fun _ _ => rfl) (fun _ _ => rfl) (run h1 trivial) fun ho => ?_
    have hk : k = cacheKey st.var := tr h1 ho
    subst hk
    obtain ⟨j, hj⟩ := ht.origin _ _ h2
    exact .inr ⟨h, [], j, rfl, by rw [← ht.cache]; exact h2, hj⟩
  | miss i k h1 h2 => exact ht.go (fun _ _ => rfl) (fun _ _ => rfl) (run h1 trivial) fun _ => trivial
  | probe i h1 => exact ht.go (fun _ _ => rfl) (fun _ _ => rfl) (run h1 trivial) fun _ => rfl
  | absent i d h1 h2 =>
    refine ht.go (fun _ _ => rfl) (fun _ _ => rfl) (run h1 trivial) fun ho => ?_
    have : d = cacheKey st.var := tr h1 ho
    subst this
    exact List.mem_append_right _ (List.mem_singleton.2 rfl)
  | present i d h1 h2 =>
    exact ht.go (fun _ _ => rfl) (fun _ _ => rfl) (run h1 trivial) fun ho => tr h1 ho
  | unread i d h1 h2 =>
    exact ht.go (fun _ _ => rfl) (fun _ _ => rfl) (run h1 trivial) fun _ => trivial
  | bad i d s o e h1 h2 h3 h4 =>
    exact ht.go (fun _ _ => rfl) (fun _ _ => rfl) (run h1 trivial) fun _ => trivial
  | read i d s o t h1 h2 h3 h4 =>
    refine ht.go (fun _ _ => rfl) (fun _ _ => rfl) (run h1 trivial) fun ho => ?_
    have : d = cacheKey st.var := tr h1 ho
    subst this
    exact ⟨h, s, [], rfl, by rw [← ht.disk]; exact h2, (Accepted.of_check hp h3 h4).1⟩
  | mark i t h1 =>
    exact ht.go (fun _ _ => rfl) (fun _ _ => rfl) (run h1 trivial) fun ho => ⟨rfl, ReadBy.mono (tr h1 ho) _⟩
  | store i k0 t h1 =>
    have ho := ht.own i (run h1 trivial)
    obtain ⟨hk0, hrd⟩ : k0 = cacheKey st.var ∧ ReadBy E files h i (cacheKey st.var) t := tr h1 ho
    subst hk0
    refine ⟨fun d => ?_, fun k => ?_, fun k u hk => ?_, fun j hj => ?_, fun j => ?_, fun j hj => ?_⟩
    · rw [fileNow_append]; exact ht.disk d
    · rw [lastStore_append]
      simp only [get?_insert_map, lastStore, ← ht.cache]
    · simp only [get?_insert_map] at hk
      split at hk
      · rename_i hkk
        obtain rfl := Option.some.inj hk
        subst hkk
        exact ⟨i, hrd.mono _⟩
      · obtain ⟨j, hj⟩ := ht.origin k u hk
        exact ⟨j, hj.mono _⟩
    · simp only [CacheState.go] at hj ⊢
      split at hj
      · subst j; exact ho
      · exact ht.own j hj
    · simp only [CacheState.go]
      split
      · subst j; rw [ho]; exact .inl (hrd.mono _)
      · exact (ht.procs j).mono _
    · exact ht.set i (by rw [h1]; simp)
  | plain i h1 =>
    refine ht.go (fun _ _ => rfl) (fun _ _ => rfl) (run h1 trivial) fun ho => ?_
    have := tr h1 ho
    exact ⟨_, one h1 (by simp), .inl ⟨List.mem_append_left _ this, rfl⟩⟩
  | finish i t t' m h1 h2 h3 =>
    refine ht.go (fun _ _ => rfl) (fun _ _ => rfl) (run h1 trivial) fun ho => ?_
    have := tr h1 ho
    exact ⟨_, one h1 (by simp), .inr ⟨t, t', ComesFrom.mono this _, h2, h3⟩⟩
  | panic i t t' e h1 h2 h3 =>
    exact ht.go (fun _ _ => rfl) (fun _ _ => rfl) (run h1 trivial) fun _ => trivial

theorem track_start (E : StoreEnv) (v : Option String) (files : String → FileState) :
    Track E files [] (.start v files) :=
  ⟨fun _ => rfl, fun _ => rfl, fun _ _ h => by simp [CacheState.start, AMap.get?] at h,
    fun _ h => h.elim, fun _ => trivial, fun _ h => absurd rfl h⟩

theorem Track.run {E : StoreEnv} (hp : ∀ s t, E.parse s = some t → UniqToml t) {v : Option String}
    {files : String → FileState} {st : CacheState} {h : List Event}
    (hr : CRun E Reordered Calm (.start v files) h st) : Track E files h st := by
  induction hr with
  | nil => exact track_start E v files
  | snoc _ hg hs ih => exact ih.step hp hg hs

end Hooq
