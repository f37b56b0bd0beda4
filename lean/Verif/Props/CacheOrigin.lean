import Verif.Props.Cache

/-!
# Where configurations come from, in all histories (C66)

Companion of C39: the environment variable may change at any time.
-/

namespace Hooq

/-- The request took a directory from the environment variable with the event `ev`, and it
was the value of the variable at that moment. -/
def Took (v : Option String) (h : List Event) (ev : String → Event) (d : String) : Prop :=
  ∃ a b, h = a ++ ev d :: b ∧ d = projectDir (varNow v a)

/-- Request `j` stored the tables under `k`.  It had read them from the file in `d`; `d` is
the value that the variable had when it looked for the file, and `k` the one that it had
after the file was read. -/
def StoredFrom (E : StoreEnv) (v : Option String) (files : String → FileState) (h : List Event) (j : Nat)
    (k d : String) (t : AMap Table) : Prop :=
  ∃ a b, h = a ++ .store j k t :: b ∧ Took v a (.mark j) k ∧ Took v a (.probe j) d ∧ ReadBy E files a j d t

/-- Where the tables of request `i` come from: from the file in `d`, where `d` is the value
of the variable when it looked for the file; or from the cache, where it looked under the
value `k` of the variable at its beginning, and which `j` stored there last. -/
def Origin' (E : StoreEnv) (v : Option String) (files : String → FileState) (h : List Event) (i : Nat)
    (t : AMap Table) : Prop :=
  (∃ d, Took v h (.probe i) d ∧ ReadBy E files h i d t) ∨
  ∃ k d j h1 h2, Took v h (.key i) k ∧ h = h1 ++ .hit i t :: h2 ∧ lastStore none k h1 = some t ∧
    StoredFrom E v files h1 j k d t

/-- How reading the file in `d` can fail. -/
def FailsWith (E : StoreEnv) (d : String) (f : FileState) (e : LoadErr) : Prop :=
  ((∀ s, f ≠ .text s) ∧ e = .read d) ∨
  ∃ s, f = .text s ∧ ((E.parse s = none ∧ e = .parse d) ∨
    ∃ t t' hl te, E.parse s = some t ∧ Reordered t t' ∧ E.withTables hl t' = .error te ∧ e = .apply te)

/-- What is known about a request in each phase, in any history. -/
def Phase.Trace (E : StoreEnv) (v : Option String) (files : String → FileState) (h : List Event) (i : Nat)
    (o : Option (List TT)) : Phase → Prop
  | .idle | .begun | .missed | .panicked => True
  | .keyed k => Took v h (.key i) k
  | .probing d | .reading d => Took v h (.probe i) d
  | .checked t => ∃ d, Took v h (.probe i) d ∧ ReadBy E files h i d t
  | .storing k t => Took v h (.mark i) k ∧ ∃ d, Took v h (.probe i) d ∧ ReadBy E files h i d t
  | .loaded none => ∃ d, Took v h (.probe i) d ∧ .absent i d ∈ h
  | .loaded (some t) => Origin' E v files h i t
  | .done (.error e) => ∃ d a b, Took v h (.probe i) d ∧ h = a ++ .fail i e :: b ∧
      FailsWith E d (fileNow (files d) d a) e
  | .done (.ok m) => ∃ hl, o = some hl ∧
      ((∃ d, Took v h (.probe i) d ∧ .absent i d ∈ h ∧ m = E.builtins hl) ∨
       ∃ t t', Origin' E v files h i t ∧ Reordered t t' ∧ E.withTables hl t' = .ok m)

theorem Took.mono {v : Option String} {h : List Event} {ev : String → Event} {d : String}
    (ht : Took v h ev d) (x : List Event) : Took v (h ++ x) ev d := by
  obtain ⟨a, b, rfl, hd⟩ := ht
  exact ⟨a, b ++ x, by simp, hd⟩

theorem StoredFrom.mono {E : StoreEnv} {v : Option String} {files : String → FileState} {h : List Event} {j : Nat}
    {k d : String} {t : AMap Table} (hs : StoredFrom E v files h j k d t) (x : List Event) :
    StoredFrom E v files (h ++ x) j k d t := by
  obtain ⟨a, b, rfl, h1⟩ := hs
  exact ⟨a, b ++ x, by simp, h1⟩

theorem Origin'.mono {E : StoreEnv} {v : Option String} {files : String → FileState} {h : List Event} {i : Nat}
    {t : AMap Table} (ho : Origin' E v files h i t) (x : List Event) : Origin' E v files (h ++ x) i t := by
  rcases ho with ⟨d, h1, h2⟩ | ⟨k, d, j, a, b, h1, rfl, h2, h3⟩
  · exact .inl ⟨d, h1.mono x, h2.mono x⟩
  · exact .inr ⟨k, d, j, a, b ++ x, h1.mono x, by simp, h2, h3⟩

theorem Phase.Trace.mono {E : StoreEnv} {v : Option String} {files : String → FileState} {h : List Event} {i : Nat}
    {o o' : Option (List TT)} {p : Phase} (hp : p.Trace E v files h i o) (x : List Event)
    (hm : ∀ hl, o = some hl → o' = some hl) : p.Trace E v files (h ++ x) i o' := by
  cases p with
  | idle | begun | missed | panicked => trivial
  | keyed d | probing d | reading d => exact Took.mono hp x
  | checked t => obtain ⟨d, h1, h2⟩ := hp; exact ⟨d, h1.mono x, h2.mono x⟩
  | storing k t => obtain ⟨h0, d, h1, h2⟩ := hp; exact ⟨h0.mono x, d, h1.mono x, h2.mono x⟩
  | loaded t =>
    cases t with
    | none => obtain ⟨d, h1, h2⟩ := hp; exact ⟨d, h1.mono x, List.mem_append_left x h2⟩
    | some t => exact Origin'.mono hp x
  | done r =>
    cases r with
    | error e => obtain ⟨d, a, b, h1, rfl, h2⟩ := hp; exact ⟨d, a, b ++ x, h1.mono x, by simp, h2⟩
    | ok m =>
      rcases hp with ⟨hl, ho, ⟨d, h1, h2, h3⟩ | ⟨t, t', h1, h2, h3⟩⟩
      · exact ⟨hl, hm hl ho, .inl ⟨d, h1.mono x, List.mem_append_left x h2, h3⟩⟩
      · exact ⟨hl, hm hl ho, .inr ⟨t, t', h1.mono x, h2, h3⟩⟩

/-- What holds after any history. -/
structure Trace (E : StoreEnv) (v : Option String) (files : String → FileState) (h : List Event)
    (st : CacheState) : Prop where
  disk : ∀ d, st.files d = fileNow (files d) d h
  cache : ∀ k, st.cache.get? k = lastStore none k h
  origin : ∀ k t, st.cache.get? k = some t → ∃ j d, StoredFrom E v files h j k d t
  procs : ∀ i, (st.procs i).Trace E v files h i st.once

theorem Trace.go {E : StoreEnv} {v : Option String} {files : String → FileState} {h : List Event} {st : CacheState}
    (ht : Trace E v files h st) {e : Event} {i : Nat} {p : Phase}
    (he : ∀ d (f : FileState), fileNow f d [e] = f) (he2 : ∀ k o, lastStore o k [e] = o)
    (hp : p.Trace E v files (h ++ [e]) i st.once) : Trace E v files (h ++ [e]) (st.go i p) := by
  refine ⟨fun d => ?_, fun k => ?_, fun k t hk => ?_, fun j => ?_⟩
  · rw [fileNow_append, he]; exact ht.disk d
  · rw [lastStore_append, he2]; exact ht.cache k
  · obtain ⟨j, d, hj⟩ := ht.origin k t hk
    exact ⟨j, d, hj.mono _⟩
  · simp only [CacheState.go]
    split
    · subst j; exact hp
    · exact (ht.procs j).mono _ fun _ h => h

theorem Trace.step {E : StoreEnv} (hp : ∀ s t, E.parse s = some t → UniqToml t)
    {v : Option String} {files : String → FileState} {h : List Event} {st st' : CacheState}
    (ht : Trace E v files h st) (ho : Once E v h st) {e : Event} (hs : CStep E Reordered st e st') :
    Trace E v files (h ++ [e]) st' := by
  have one {i : Nat} {p : Phase} (hi : st.procs i = p) (hp : p ≠ .idle) :
      st.once = some (st.helper E) := st.helper_once (ho.set i (by rw [hi]; exact hp))
  have tr {i : Nat} {p : Phase} (hi : st.procs i = p) (x : List Event) :
      p.Trace E v files (h ++ x) i st.once := by
    have := ht.procs i
    rw [hi] at this; exact this.mono x fun _ h => h
  have took (ev : String → Event) : Took v (h ++ [ev (cacheKey st.var)]) ev (cacheKey st.var) :=
    ⟨h, [], rfl, by rw [ho.var, cacheKey_eq]⟩
  cases hs with
  | host w =>
    refine ⟨fun d => ?_, fun k => ?_, fun k t hk => ?_, fun j => ?_⟩
    · rw [fileNow_append]; exact ht.disk d
    · rw [lastStore_append]; exact ht.cache k
    · obtain ⟨j, d, hj⟩ := ht.origin k t hk
      exact ⟨j, d, hj.mono _⟩
    · exact (ht.procs j).mono _ fun _ h => h
  | write d0 f =>
    refine ⟨fun d => ?_, fun k => ?_, fun k t hk => ?_, fun j => ?_⟩
    · rw [fileNow_append]
      simp only [fileNow, ← ht.disk d]
      by_cases hd : d = d0
      · rw [if_pos hd, if_pos hd.symm]
      · rw [if_neg hd, if_neg (Ne.symm hd)]
    · rw [lastStore_append]; exact ht.cache k
    · obtain ⟨j, d, hj⟩ := ht.origin k t hk
      exact ⟨j, d, hj.mono _⟩
    · exact (ht.procs j).mono _ fun _ h => h
  | begin i h1 =>
    refine ⟨fun d => ?_, fun k => ?_, fun k t hk => ?_, fun j => ?_⟩
    · rw [fileNow_append]; exact ht.disk d
    · rw [lastStore_append]; exact ht.cache k
    · obtain ⟨j, d, hj⟩ := ht.origin k t hk
      exact ⟨j, d, hj.mono _⟩
    · simp only [CacheState.go]
      split
      · trivial
      · exact (ht.procs j).mono _ fun hl hh => by simp [CacheState.helper, hh]
  | key i h1 => exact ht.go (fun _ _ => rfl) (fun _ _ => rfl) (took (.key i))
  | hit i k t h1 h2 =>
    refine ht.go (fun _ _ => rfl) (fun _ _ => rfl) ?_
    obtain ⟨j, d, hj⟩ := ht.origin _ _ h2
    exact .inr ⟨k, d, j, h, [], tr h1 _, rfl, by rw [← ht.cache]; exact h2, hj⟩
  | miss i k h1 h2 => exact ht.go (fun _ _ => rfl) (fun _ _ => rfl) trivial
  | probe i h1 => exact ht.go (fun _ _ => rfl) (fun _ _ => rfl) (took (.probe i))
  | absent i d h1 h2 =>
    exact ht.go (fun _ _ => rfl) (fun _ _ => rfl) ⟨d, tr h1 _, by simp⟩
  | present i d h1 h2 => exact ht.go (fun _ _ => rfl) (fun _ _ => rfl) (tr h1 _)
  | unread i d h1 h2 =>
    refine ht.go (fun _ _ => rfl) (fun _ _ => rfl) ⟨d, h, [], tr h1 _, rfl, .inl ⟨?_, rfl⟩⟩
    rw [← ht.disk]; exact h2
  | bad i d s o e h1 h2 h3 h4 =>
    refine ht.go (fun _ _ => rfl) (fun _ _ => rfl) ⟨d, h, [], tr h1 _, rfl, .inr ⟨s, ?_, ?_⟩⟩
    · rw [← ht.disk]; exact h2
    · simp only [StoreEnv.check] at h4
      split at h4
      · rename_i hn; exact .inl ⟨hn, (Except.error.inj h4).symm⟩
      · rename_i t hn
        split at h4
        · rename_i te ha
          exact .inr ⟨t, o t, _, te, hn, h3 _ hn, ha, (Except.error.inj h4).symm⟩
        · cases h4
  | read i d s o t h1 h2 h3 h4 =>
    refine ht.go (fun _ _ => rfl) (fun _ _ => rfl) ⟨d, tr h1 _, h, s, [], rfl, ?_, (Accepted.of_check hp h3 h4).1⟩
    rw [← ht.disk]; exact h2
  | mark i t h1 => exact ht.go (fun _ _ => rfl) (fun _ _ => rfl) ⟨took (.mark i), tr h1 _⟩
  | store i k0 t h1 =>
    have hme := tr h1 []
    rw [List.append_nil] at hme
    obtain ⟨hk, d, hd, hrd⟩ := hme
    have hst : StoredFrom E v files (h ++ [.store i k0 t]) i k0 d t := ⟨h, [], rfl, hk, hd, hrd⟩
    refine ⟨fun d => ?_, fun k => ?_, fun k u hk => ?_, fun j => ?_⟩
    · rw [fileNow_append]; exact ht.disk d
    · rw [lastStore_append]
      simp only [get?_insert_map, lastStore, ← ht.cache]
    · simp only [get?_insert_map] at hk
      split at hk
      · rename_i hkk
        obtain rfl := Option.some.inj hk
        subst hkk
        exact ⟨i, d, hst⟩
      · obtain ⟨j, d, hj⟩ := ht.origin k u hk
        exact ⟨j, d, hj.mono _⟩
    · simp only [CacheState.go]
      split
      · subst j; exact .inl ⟨d, hd.mono _, hrd.mono _⟩
      · exact (ht.procs j).mono _ fun _ h => h
  | plain i h1 =>
    refine ht.go (fun _ _ => rfl) (fun _ _ => rfl) ?_
    obtain ⟨d, h2, h3⟩ := tr h1 [.finish i (E.presets (st.helper E))]
    exact ⟨_, one h1 (by simp), .inl ⟨d, h2, h3, rfl⟩⟩
  | finish i t t' m h1 h2 h3 =>
    exact ht.go (fun _ _ => rfl) (fun _ _ => rfl) ⟨_, one h1 (by simp), .inr ⟨t, t', tr h1 _, h2, h3⟩⟩
  | panic i t t' e h1 h2 h3 => exact ht.go (fun _ _ => rfl) (fun _ _ => rfl) trivial

theorem Trace.run {E : StoreEnv} (hp : ∀ s t, E.parse s = some t → UniqToml t) {v : Option String}
    {G : CacheState → Event → Prop} {files : String → FileState} {st : CacheState} {h : List Event}
    (hr : CRun E Reordered G (.start v files) h st) : Trace E v files h st := by
  induction hr with
  | nil =>
    exact ⟨fun _ => rfl, fun _ => rfl, fun _ _ h => by simp [CacheState.start, AMap.get?] at h, fun _ => trivial⟩
  | snoc hr _ hs ih => exact ih.step hp (Once.run hr) hs

/-- C66.  Where the answer to a successful request comes from, in every history: the presets,
if no file was found in the directory that the variable named when the request looked for
it; or the presets with tables applied, which the request read from that directory, or
which it found in the cache under the value of the variable at its beginning. -/
theorem C66_answer {E : StoreEnv} (hp : ∀ s t, E.parse s = some t → UniqToml t) {v : Option String}
    {files : String → FileState} {h : List Event} {st : CacheState}
    (hr : CRun E Reordered Free (.start v files) h st) {i : Nat} {m : FlavorMap}
    (hi : st.procs i = .done (.ok m)) :
    ∃ w, firstVar v h = some w ∧
      ((∃ d, Took v h (.probe i) d ∧ .absent i d ∈ h ∧ m = E.builtins (E.helpers w)) ∨
       ∃ t t', Origin' E v files h i t ∧ Reordered t t' ∧ E.withTables (E.helpers w) t' = .ok m) := by
  have := (Trace.run hp hr).procs i
  rw [hi] at this
  obtain ⟨hl, ho, this⟩ := this
  rw [(Once.run hr).once] at ho
  obtain ⟨w, hw, rfl⟩ := Option.map_eq_some_iff.1 ho
  exact ⟨w, hw, this⟩

/-- C66.  Where an error comes from, in every history: from the file in the directory that
the variable named when the request looked for it, as it was at the moment of reading. -/
theorem C66_error {E : StoreEnv} (hp : ∀ s t, E.parse s = some t → UniqToml t) {v : Option String}
    {files : String → FileState} {h : List Event} {st : CacheState}
    (hr : CRun E Reordered Free (.start v files) h st) {i : Nat} {e : LoadErr}
    (hi : st.procs i = .done (.error e)) :
    ∃ d a b, Took v h (.probe i) d ∧ h = a ++ .fail i e :: b ∧ FailsWith E d (fileNow (files d) d a) e := by
  have := (Trace.run hp hr).procs i
  rw [hi] at this
  exact this

/-- C66.  What is in the cache, in every history: under each key what was last stored there,
by a request that had read it from the directory named at its look for the file. -/
theorem C66_cache {E : StoreEnv} (hp : ∀ s t, E.parse s = some t → UniqToml t) {v : Option String}
    {files : String → FileState} {h : List Event} {st : CacheState}
    (hr : CRun E Reordered Free (.start v files) h st) (k : String) :
    st.cache.get? k = lastStore none k h ∧
    ∀ t, st.cache.get? k = some t → ∃ j d, StoredFrom E v files h j k d t :=
  ⟨(Trace.run hp hr).cache k, (Trace.run hp hr).origin k⟩

open Ex in
/-- Non-vacuity: request 0 reads the file of `a` and stores it for `b`, because the variable
changes in between.  The cache theorem applies, and the tables under `b` are those of `a`. -/
example : ∃ h st, CRun senv Reordered Free (.start (some "a") disk) h st ∧
    st.procs 0 = .loaded (some [("x", .mk {} [])]) ∧
    st.cache.get? "b" = some [("x", .mk {} [])] ∧
    StoredFrom senv (some "a") disk h 0 "b" "a" [("x", .mk {} [])] := by
  have s0 := CRun.snoc (G := Free) .nil trivial
    (CStep.begin (E := senv) (Same := Reordered) (.start (some "a") disk) 0 rfl)
  have s0 := CRun.snoc s0 trivial (CStep.key _ 0 rfl)
  have s1 := CRun.snoc s0 trivial (CStep.miss _ 0 "a" rfl rfl)
  have s2 := CRun.snoc s1 trivial (CStep.probe _ 0 rfl)
  have s3 := CRun.snoc s2 trivial (CStep.present _ 0 "a" rfl (by
    show disk "a" ≠ .absent
    simp [disk]))
  have s4 := CRun.snoc s3 trivial (CStep.read _ 0 "a" "A" id [("x", .mk {} [])] rfl rfl order_id rfl)
  have s5 := CRun.snoc s4 trivial (CStep.host _ (some "b"))
  have s6 := CRun.snoc s5 trivial (CStep.mark _ 0 _ rfl)
  have s6 := CRun.snoc s6 trivial (CStep.store _ 0 _ _ rfl)
  refine ⟨_, _, s6, rfl, rfl, ?_⟩
  refine ⟨[.begin 0, .key 0 "a", .miss 0, .probe 0 "a", .present 0 "a", .read 0 "a" "A" [("x", .mk {} [])],
    .host (some "b"), .mark 0 "b"], [], rfl, ?_, ?_, ?_⟩
  · exact ⟨[.begin 0, .key 0 "a", .miss 0, .probe 0 "a", .present 0 "a", .read 0 "a" "A" [("x", .mk {} [])],
      .host (some "b")], [], rfl, rfl⟩
  · exact ⟨[.begin 0, .key 0 "a", .miss 0], _, rfl, rfl⟩
  · exact ⟨[.begin 0, .key 0 "a", .miss 0, .probe 0 "a", .present 0 "a"], "A", _, rfl, rfl, rfl⟩

open Ex in
/-- Non-vacuity of the error theorem: the file is made unreadable after it was found. -/
example : ∃ h st, CRun senv Reordered Free (.start (some "a") disk) h st ∧
    st.procs 0 = .done (.error (.read "a")) := by
  have s0 := CRun.snoc (G := Free) .nil trivial
    (CStep.begin (E := senv) (Same := Reordered) (.start (some "a") disk) 0 rfl)
  have s0 := CRun.snoc s0 trivial (CStep.key _ 0 rfl)
  have s1 := CRun.snoc s0 trivial (CStep.miss _ 0 "a" rfl rfl)
  have s2 := CRun.snoc s1 trivial (CStep.probe _ 0 rfl)
  have s3 := CRun.snoc s2 trivial (CStep.present _ 0 "a" rfl (by
    show disk "a" ≠ .absent
    simp [disk]))
  have s4 := CRun.snoc s3 trivial (CStep.write _ "a" .unreadable)
  have s5 := CRun.snoc s4 trivial (CStep.unread _ 0 "a" rfl fun _ => nofun)
  exact ⟨_, _, s5, rfl⟩

end Hooq
