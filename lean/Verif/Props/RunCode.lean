import Verif.Spec.RunCode
import Verif.Model.Spliced
import Verif.Props.Helpers

/-!
# C93: what `$bindings` and `$hooq_meta` compute
-/

namespace Hooq

variable {Ty : Nat → Type} {M : Machine Ty} {L : Locals Ty}

/-! ## Reading is unambiguous -/

/-- A token that separates nothing. -/
def TT.Inner : TT → Prop
  | .punct c _ => c ≠ ',' ∧ c ≠ ';'
  | _ => True

theorem AbsPath.colon {p : List TT} {f : List String} (h : AbsPath p f) :
    ∃ s1 s2 x s3 r, p = .punct ':' s1 :: .punct ':' s2 :: .ident x s3 :: r := by
  cases h with
  | last => exact ⟨_, _, _, _, _, rfl⟩
  | more _ => exact ⟨_, _, _, _, _, rfl⟩

theorem AbsPath.inner {p : List TT} {f : List String} (h : AbsPath p f) :
    ∀ t ∈ p, (∃ s, t = .punct ':' s) ∨ ∃ x s, t = .ident x s := by
  induction h with
  | last => simp
  | more _ ih => simpa using ih

theorem AbsPath.unique {p : List TT} {f g : List String} (h : AbsPath p f) (h' : AbsPath p g) : f = g := by
  induction h generalizing g with
  | last =>
    cases h' with
    | last => rfl
    | more k => cases k
  | more k ih =>
    cases h' with
    | last => cases k
    | more k' => rw [ih k']

theorem AnyType.noEq {ts : List TT} (h : AnyType ts) (s : Span) : TT.punct '=' s ∉ ts := by
  obtain ⟨hp, hq⟩ := h
  intro hm
  simp only [List.mem_append, List.mem_cons, List.not_mem_nil, or_false] at hm
  rcases hm with hm | hm | hm | hm | hm
  · rcases hp.inner _ hm with ⟨_, e⟩ | ⟨_, _, e⟩ <;> simp at e
  · simp at hm
  · simp at hm
  · rcases hq.inner _ hm with ⟨_, e⟩ | ⟨_, _, e⟩ <;> simp at e
  · simp at hm

/-- No separator stands at the top of an expression. -/
theorem Computes.inner {ts : List TT} {v : RVal Ty} (h : Computes M L ts v) : ∀ t ∈ ts, t.Inner := by
  have path : ∀ {p : List TT} {f : List String} {g : TT}, AbsPath p f → g.Inner → ∀ t ∈ p ++ [g], t.Inner := by
    intro p f g hp hg t ht
    simp only [List.mem_append, List.mem_singleton] at ht
    rcases ht with ht | rfl
    · rcases hp.inner _ ht with ⟨_, rfl⟩ | ⟨_, _, rfl⟩ <;> simp [TT.Inner]
    · exact hg
  cases h with
  | call hp _ _ => exact path hp trivial
  | make hp _ _ => exact path hp trivial
  | _ => simp [TT.Inner]

/-- A list is cut at the first separator in one way only. -/
theorem cut_unique {P : TT → Prop} {a b c d : List TT} {x y : TT} (ha : ∀ t ∈ a, ¬ P t) (hb : ∀ t ∈ b, ¬ P t)
    (hx : P x) (hy : P y) (e : a ++ x :: c = b ++ y :: d) : a = b ∧ x = y ∧ c = d := by
  induction a generalizing b with
  | nil =>
    cases b with
    | nil => simpa using e
    | cons t b =>
      simp only [List.nil_append, List.cons_append, List.cons.injEq] at e
      exact absurd (e.1 ▸ hx) (hb t (by simp))
  | cons t a ih =>
    cases b with
    | nil =>
      simp only [List.nil_append, List.cons_append, List.cons.injEq] at e
      exact absurd (e.1 ▸ hy) (ha t (by simp))
    | cons u b =>
      simp only [List.cons_append, List.cons.injEq] at e
      obtain ⟨h1, h2, h3⟩ := ih (fun t h => ha t (by simp [h])) (fun t h => hb t (by simp [h])) e.2
      exact ⟨by rw [e.1, h1], h2, h3⟩

theorem cut_inner {a b c d : List TT} {x y : TT} (ha : ∀ t ∈ a, t.Inner) (hb : ∀ t ∈ b, t.Inner)
    (hx : ¬ x.Inner) (hy : ¬ y.Inner) (e : a ++ x :: c = b ++ y :: d) : a = b ∧ x = y ∧ c = d :=
  cut_unique (P := fun t => ¬ t.Inner) (fun t h => by simp [ha t h]) (fun t h => by simp [hb t h]) hx hy e

theorem notInner_comma (s : Span) : ¬ (TT.punct ',' s).Inner := by simp [TT.Inner]
theorem notInner_semi (s : Span) : ¬ (TT.punct ';' s).Inner := by simp [TT.Inner]

theorem Applies.unique {f : List String} {v w w' : RVal Ty} (h : Applies M f v w) (h' : Applies M f v w') : w = w' := by
  generalize hg : f = g at h'
  generalize hu : v = u at h'
  cases h <;> cases h' <;> simp_all
  rename_i l l'
  have : l = l' := by
    induction l generalizing l' with
    | nil => cases l' <;> simp_all
    | cons a l ih =>
      cases l' with
      | nil => simp at hu
      | cons b l' =>
        simp only [List.map_cons, List.cons.injEq, RVal.pair.injEq, RVal.owned.injEq, RVal.payload.injEq] at hu
        obtain ⟨⟨h1, h2⟩, h3⟩ := hu
        rw [Prod.ext h1 h2, ih h3]
  rw [this]

theorem Makes.unique {f : List String} {fs : List (String × RVal Ty)} {w w' : RVal Ty} (h : Makes f fs w)
    (h' : Makes f fs w') : w = w' := by
  generalize hg : f = g at h'
  cases h with
  | payload h1 =>
    cases h' with
    | payload h2 =>
      have h3 := h1.symm.trans h2
      have e1 := h3.subset (a := ("expr", _)) (List.mem_cons_self ..)
      have e2 := h3.subset (a := ("value", _)) (List.mem_cons_of_mem _ (List.mem_cons_self ..))
      simp at e1 e2
      rw [e1, e2]
    | record h2 => simp at hg
  | record h1 =>
    cases h' with
    | payload h2 => simp at hg
    | record h2 =>
      have h3 := h1.symm.trans h2
      have e : ∀ a, a ∈ _ → a ∈ _ := fun a ha => h3.subset ha
      simp only [List.mem_cons, List.not_mem_nil, or_false, forall_eq_or_imp, forall_eq, Prod.mk.injEq] at e
      simp at e
      obtain ⟨rfl, rfl, rfl, rfl, rfl, rfl, rfl⟩ := e
      rfl

theorem path_long {p : List TT} {f : List String} (h : AbsPath p f) (g t : TT) : p ++ [g] ≠ [t] := by
  obtain ⟨_, _, _, _, _, rfl⟩ := h.colon
  simp

/-- What an expression can be. -/
theorem Computes.inv {ts : List TT} {v : RVal Ty} (h : Computes M L ts v) :
    (∃ t, ts = [t] ∧ ((∃ s sp, t = .lit (.str s) sp ∧ v = .slice s) ∨
      (∃ n sp, t = .lit (.usize n) sp ∧ v = .num n) ∨ (∃ x sp, t = .ident x sp ∧ L x = some v) ∨
      (∃ e sp, t = .valueHole e sp ∧ v = .any (M.eval (L.scope M) e)) ∨
      (∃ us ws a b sp sp', t = .group .paren (us ++ .punct ',' sp :: ws) sp' ∧ Computes M L us a ∧
        Computes M L ws b ∧ v = .pair a b) ∨
      (∃ us vs sp, t = .group .bracket us sp ∧ Elements M L us vs ∧ v = .array vs) ∨
      (∃ us sp, t = .group .brace us sp ∧ Body M L us v))) ∨
    ∃ p f us sp, AbsPath p f ∧ ((ts = p ++ [.group .paren us sp] ∧ ∃ w, Computes M L us w ∧ Applies M f w v) ∨
      (ts = p ++ [.group .brace us sp] ∧ ∃ fs, Fields M L us fs ∧ Makes f fs v)) := by
  cases h with
  | call h1 h2 h3 => exact .inr ⟨_, _, _, _, h1, .inl ⟨rfl, _, h2, h3⟩⟩
  | make h1 h2 h3 => exact .inr ⟨_, _, _, _, h1, .inr ⟨rfl, _, h2, h3⟩⟩
  | var h => exact .inl ⟨_, rfl, .inr (.inr (.inl ⟨_, _, rfl, h⟩))⟩
  | pair h1 h2 => exact .inl ⟨_, rfl, .inr (.inr (.inr (.inr (.inl ⟨_, _, _, _, _, _, rfl, h1, h2, rfl⟩))))⟩
  | array h => exact .inl ⟨_, rfl, .inr (.inr (.inr (.inr (.inr (.inl ⟨_, _, _, rfl, h, rfl⟩)))))⟩
  | block h => exact .inl ⟨_, rfl, .inr (.inr (.inr (.inr (.inr (.inr ⟨_, _, rfl, h⟩)))))⟩
  | _ => simp

/-- What a token can be that is an expression. -/
theorem Computes.single {t : TT} {v : RVal Ty} (h : Computes M L [t] v) :
    (∃ s sp, t = .lit (.str s) sp ∧ v = .slice s) ∨
      (∃ n sp, t = .lit (.usize n) sp ∧ v = .num n) ∨ (∃ x sp, t = .ident x sp ∧ L x = some v) ∨
      (∃ e sp, t = .valueHole e sp ∧ v = .any (M.eval (L.scope M) e)) ∨
      (∃ us ws a b sp sp', t = .group .paren (us ++ .punct ',' sp :: ws) sp' ∧ Computes M L us a ∧
        Computes M L ws b ∧ v = .pair a b) ∨
      (∃ us vs sp, t = .group .bracket us sp ∧ Elements M L us vs ∧ v = .array vs) ∨
      (∃ us sp, t = .group .brace us sp ∧ Body M L us v) := by
  rcases h.inv with ⟨_, e, h⟩ | ⟨_, _, _, _, hp, ⟨e, _⟩ | ⟨e, _⟩⟩
  · obtain rfl := (List.cons.inj e).1
    exact h
  · exact absurd e.symm (path_long hp _ _)
  · exact absurd e.symm (path_long hp _ _)

/-- A path and a group is a call or a struct literal. -/
theorem Computes.applied {p us : List TT} {f : List String} {d : Delim} {sp : Span} {v : RVal Ty} (hp : AbsPath p f)
    (h : Computes M L (p ++ [.group d us sp]) v) :
    (d = .paren ∧ ∃ w, Computes M L us w ∧ Applies M f w v) ∨
      (d = .brace ∧ ∃ fs, Fields M L us fs ∧ Makes f fs v) := by
  rcases h.inv with ⟨_, e, h⟩ | ⟨_, _, _, _, hp', ⟨e, h⟩ | ⟨e, h⟩⟩
  · exact absurd e (path_long hp _ _)
  · obtain ⟨rfl, e1⟩ := List.append_inj' e rfl
    obtain ⟨rfl, rfl, rfl⟩ := TT.group.inj (List.cons.inj e1).1
    obtain rfl := hp.unique hp'
    exact .inl ⟨rfl, h⟩
  · obtain ⟨rfl, e1⟩ := List.append_inj' e rfl
    obtain ⟨rfl, rfl, rfl⟩ := TT.group.inj (List.cons.inj e1).1
    obtain rfl := hp.unique hp'
    exact .inr ⟨rfl, h⟩

theorem Computes.ne_nil {v : RVal Ty} : ¬ Computes M L [] v := by
  intro h
  rcases h.inv with ⟨_, e, _⟩ | ⟨_, _, _, _, _, ⟨e, _⟩ | ⟨e, _⟩⟩ <;> simp at e

theorem Elements.inv {ts : List TT} {vs : List (RVal Ty)} (h : Elements M L ts vs) :
    (ts = [] ∧ vs = []) ∨ (∃ v, Computes M L ts v ∧ vs = [v]) ∨
      ∃ us ws v vs' sp, ts = us ++ .punct ',' sp :: ws ∧ Computes M L us v ∧ Elements M L ws vs' ∧ vs = v :: vs' := by
  cases h with
  | nil => exact .inl ⟨rfl, rfl⟩
  | one h => exact .inr (.inl ⟨_, h, rfl⟩)
  | cons h1 h2 => exact .inr (.inr ⟨_, _, _, _, _, rfl, h1, h2, rfl⟩)

/-- An expression contains no comma at its top. -/
theorem Computes.no_comma {us ws : List TT} {v : RVal Ty} {sp : Span} :
    ¬ Computes M L (us ++ .punct ',' sp :: ws) v := fun h =>
  notInner_comma sp (h.inner _ (by simp))

/-- An expression does not begin with two names. -/
theorem Computes.no_let {x : String} {t : TT} {us : List TT} {v : RVal Ty} {sp : Span} :
    ¬ Computes M L (.ident x sp :: t :: us) v := by
  intro h
  rcases h.inv with ⟨_, e, _⟩ | ⟨_, _, _, _, hp, ⟨e, _⟩ | ⟨e, _⟩⟩
  · simp at e
  · obtain ⟨_, _, _, _, _, rfl⟩ := hp.colon
    simp at e
  · obtain ⟨_, _, _, _, _, rfl⟩ := hp.colon
    simp at e

theorem Fields.inv {ts : List TT} {fs : List (String × RVal Ty)} (h : Fields M L ts fs) :
    (ts = [] ∧ fs = []) ∨ ∃ x s1, (∃ us v s2, ts = .ident x s1 :: .punct ':' s2 :: us ∧ Computes M L us v ∧ fs = [(x, v)]) ∨
      (∃ us ws v fs' s2 s3, ts = .ident x s1 :: .punct ':' s2 :: (us ++ .punct ',' s3 :: ws) ∧ Computes M L us v ∧
        Fields M L ws fs' ∧ fs = (x, v) :: fs') ∨
      (∃ v, ts = [.ident x s1] ∧ L x = some v ∧ fs = [(x, v)]) ∨
      (∃ us v fs' s2, ts = .ident x s1 :: .punct ',' s2 :: us ∧ L x = some v ∧ Fields M L us fs' ∧
        fs = (x, v) :: fs') := by
  cases h with
  | nil => exact .inl ⟨rfl, rfl⟩
  | one h => exact .inr ⟨_, _, .inl ⟨_, _, _, rfl, h, rfl⟩⟩
  | cons h1 h2 => exact .inr ⟨_, _, .inr (.inl ⟨_, _, _, _, _, _, rfl, h1, h2, rfl⟩)⟩
  | shortOne h => exact .inr ⟨_, _, .inr (.inr (.inl ⟨_, rfl, h, rfl⟩))⟩
  | short h1 h2 => exact .inr ⟨_, _, .inr (.inr (.inr ⟨_, _, _, _, rfl, h1, h2, rfl⟩))⟩

theorem Body.inv {ts : List TT} {v : RVal Ty} (h : Body M L ts v) :
    Computes M L ts v ∨
      (∃ x us ws w s1 s2 s3 s4, ts = .ident "let" s1 :: .ident x s2 :: .punct '=' s3 :: (us ++ .punct ';' s4 :: ws) ∧
        Computes M L us w ∧ Body M (L.set x w) ws v) ∨
      (∃ x ty us ws d s1 s2 s3 s4 s5, ts = .ident "let" s1 :: .ident x s2 :: .punct ':' s3 ::
          (ty ++ .punct '=' s4 :: (us ++ .punct ';' s5 :: ws)) ∧ AnyType ty ∧
        Computes M L us (.rc d) ∧ Body M (L.set x (.rc d)) ws v) := by
  cases h with
  | last h => exact .inl h
  | bind h1 h2 => exact .inr (.inl ⟨_, _, _, _, _, _, _, _, rfl, h1, h2⟩)
  | bindAny h1 h2 h3 => exact .inr (.inr ⟨_, _, _, _, _, _, _, _, _, _, rfl, h1, h2, h3⟩)

mutual
theorem Computes.unique {L : Locals Ty} {ts : List TT} {v : RVal Ty} :
    Computes M L ts v → ∀ {w : RVal Ty}, Computes M L ts w → v = w
  | .str, _, h => by have := h.single; simp at this; exact this.symm
  | .num, _, h => by have := h.single; simp at this; exact this.symm
  | .var hv, _, h => by have := h.single; simp at this; rw [hv] at this; exact Option.some.inj this
  | .user, _, h => by have := h.single; simp at this; exact this.symm
  | .call hp h1 h2, _, h => by
    rcases h.applied hp with ⟨_, w, g1, g2⟩ | ⟨e, _⟩
    · obtain rfl := h1.unique g1
      exact h2.unique g2
    · simp at e
  | .make hp h1 h2, _, h => by
    rcases h.applied hp with ⟨e, _⟩ | ⟨_, w, g1, g2⟩
    · simp at e
    · obtain rfl := h1.unique g1
      exact h2.unique g2
  | .pair h1 h2, _, h => by
    rcases h.single with ⟨_, _, e, _⟩ | ⟨_, _, e, _⟩ | ⟨_, _, e, _⟩ | ⟨_, _, e, _⟩ |
      ⟨us, ws, a, b, s1, s2, e, g1, g2, rfl⟩ | ⟨_, _, _, e, _⟩ | ⟨_, _, e, _⟩ <;> try (simp at e; done)
    obtain ⟨_, e, _⟩ := TT.group.inj e
    obtain ⟨rfl, _, rfl⟩ := cut_inner h1.inner g1.inner (notInner_comma _) (notInner_comma _) e
    rw [h1.unique g1, h2.unique g2]
  | .array h1, _, h => by
    rcases h.single with ⟨_, _, e, _⟩ | ⟨_, _, e, _⟩ | ⟨_, _, e, _⟩ | ⟨_, _, e, _⟩ |
      ⟨us, ws, a, b, s1, s2, e, g1, g2, rfl⟩ | ⟨_, _, _, e, g, rfl⟩ | ⟨_, _, e, _⟩ <;> try (simp at e; done)
    obtain ⟨_, rfl, _⟩ := TT.group.inj e
    rw [h1.unique g]
  | .block h1, _, h => by
    rcases h.single with ⟨_, _, e, _⟩ | ⟨_, _, e, _⟩ | ⟨_, _, e, _⟩ | ⟨_, _, e, _⟩ |
      ⟨us, ws, a, b, s1, s2, e, g1, g2, rfl⟩ | ⟨_, _, _, e, g, rfl⟩ | ⟨_, _, e, g⟩ <;> try (simp at e; done)
    obtain ⟨_, rfl, _⟩ := TT.group.inj e
    exact h1.unique g
termination_by structural h => h
theorem Elements.unique {L : Locals Ty} {ts : List TT} {vs : List (RVal Ty)} :
    Elements M L ts vs → ∀ {ws : List (RVal Ty)}, Elements M L ts ws → vs = ws
  | .nil, _, h => by
    rcases h.inv with ⟨_, rfl⟩ | ⟨_, g, _⟩ | ⟨_, _, _, _, _, e, _⟩
    · rfl
    · exact absurd g Computes.ne_nil
    · simp at e
  | .one h1, _, h => by
    rcases h.inv with ⟨rfl, _⟩ | ⟨_, g, rfl⟩ | ⟨_, _, _, _, _, rfl, _⟩
    · exact absurd h1 Computes.ne_nil
    · rw [h1.unique g]
    · exact absurd h1 Computes.no_comma
  | .cons h1 h2, _, h => by
    rcases h.inv with ⟨e, _⟩ | ⟨_, g, _⟩ | ⟨_, _, _, _, _, e, g1, g2, rfl⟩
    · simp at e
    · exact absurd g Computes.no_comma
    · obtain ⟨rfl, _, rfl⟩ := cut_inner h1.inner g1.inner (notInner_comma _) (notInner_comma _) e
      rw [h1.unique g1, h2.unique g2]
termination_by structural h => h
theorem Fields.unique {L : Locals Ty} {ts : List TT} {fs : List (String × RVal Ty)} :
    Fields M L ts fs → ∀ {gs : List (String × RVal Ty)}, Fields M L ts gs → fs = gs
  | .nil, _, h => by
    rcases h.inv with ⟨_, rfl⟩ | ⟨_, _, ⟨_, _, _, e, _⟩ | ⟨_, _, _, _, _, _, e, _⟩ | ⟨_, e, _⟩ | ⟨_, _, _, _, e, _⟩⟩
    · rfl
    all_goals simp at e
  | .one h1, _, h => by
    rcases h.inv with ⟨e, rfl⟩ | ⟨_, _, ⟨_, _, _, e, g, rfl⟩ | ⟨_, _, _, _, _, _, e, _⟩ | ⟨_, e, _⟩ | ⟨_, _, _, _, e, _⟩⟩ <;>
      simp at e
    · obtain ⟨⟨rfl, _⟩, _, rfl⟩ := e
      rw [h1.unique g]
    · obtain ⟨_, _, rfl⟩ := e
      exact absurd h1 Computes.no_comma
  | .cons h1 h2, _, h => by
    rcases h.inv with ⟨e, rfl⟩ | ⟨_, _, ⟨_, _, _, e, g, rfl⟩ | ⟨_, _, _, _, _, _, e, g1, g2, rfl⟩ | ⟨_, e, _⟩ | ⟨_, _, _, _, e, _⟩⟩ <;>
      simp at e
    · obtain ⟨_, _, rfl⟩ := e
      exact absurd g Computes.no_comma
    · obtain ⟨⟨rfl, _⟩, _, e⟩ := e
      obtain ⟨rfl, _, rfl⟩ := cut_inner h1.inner g1.inner (notInner_comma _) (notInner_comma _) e
      rw [h1.unique g1, h2.unique g2]
  | .shortOne h1, _, h => by
    rcases h.inv with ⟨e, rfl⟩ | ⟨_, _, ⟨_, _, _, e, g, rfl⟩ | ⟨_, _, _, _, _, _, e, g1, g2, rfl⟩ | ⟨_, e, g, rfl⟩ | ⟨_, _, _, _, e, _⟩⟩ <;>
      simp at e
    obtain ⟨rfl, _⟩ := e
    rw [h1] at g
    rw [Option.some.inj g]
  | .short h1 h2, _, h => by
    rcases h.inv with ⟨e, rfl⟩ | ⟨_, _, ⟨_, _, _, e, g, rfl⟩ | ⟨_, _, _, _, _, _, e, g1, g2, rfl⟩ | ⟨_, e, g, rfl⟩ | ⟨_, _, _, _, e, g1, g2, rfl⟩⟩ <;>
      simp at e
    obtain ⟨⟨rfl, _⟩, _, rfl⟩ := e
    rw [h1] at g1
    rw [Option.some.inj g1, h2.unique g2]
termination_by structural h => h
theorem Body.unique {L : Locals Ty} {ts : List TT} {v : RVal Ty} :
    Body M L ts v → ∀ {w : RVal Ty}, Body M L ts w → v = w
  | .last h1, _, h => by
    rcases h.inv with g | ⟨_, _, _, _, _, _, _, _, rfl, _⟩ | ⟨_, _, _, _, _, _, _, _, _, _, rfl, _⟩
    · exact h1.unique g
    · exact absurd h1 Computes.no_let
    · exact absurd h1 Computes.no_let
  | .bind h1 h2, _, h => by
    rcases h.inv with g | ⟨_, _, _, _, _, _, _, _, e, g1, g2⟩ | ⟨_, _, _, _, _, _, _, _, _, _, e, _⟩
    · exact absurd g Computes.no_let
    · simp at e
      obtain ⟨_, ⟨rfl, _⟩, _, e⟩ := e
      obtain ⟨rfl, _, rfl⟩ := cut_inner h1.inner g1.inner (notInner_semi _) (notInner_semi _) e
      obtain rfl := h1.unique g1
      exact h2.unique g2
    · simp at e
  | .bindAny h0 h1 h2, _, h => by
    rcases h.inv with g | ⟨_, _, _, _, _, _, _, _, e, g1, g2⟩ | ⟨_, _, _, _, _, _, _, _, _, _, e, g0, g1, g2⟩
    · exact absurd g Computes.no_let
    · simp at e
    · simp at e
      obtain ⟨_, ⟨rfl, _⟩, _, e⟩ := e
      obtain ⟨rfl, _, e⟩ := cut_unique (P := fun t => ∃ s, t = .punct '=' s)
        (fun t ht ⟨s, hs⟩ => h0.noEq s (hs ▸ ht)) (fun t ht ⟨s, hs⟩ => g0.noEq s (hs ▸ ht)) ⟨_, rfl⟩ ⟨_, rfl⟩ e
      obtain ⟨rfl, _, rfl⟩ := cut_inner h1.inner g1.inner (notInner_semi _) (notInner_semi _) e
      obtain e := h1.unique g1
      obtain rfl := RVal.rc.inj e
      exact h2.unique g2
termination_by structural h => h
end

/-! ## The generated code -/

theorem absPath_tkAbs {x : String} {l : List String} : AbsPath (tkAbs (x :: l)) (x :: l) := by
  induction l generalizing x with
  | nil => exact .last
  | cons y l ih => exact .more (ih (x := y))

theorem set_scope (sc : Scope Ty) (s : String) :
    ((Locals.ofScope sc).set "expr" (.owned s)).scope M = sc.bind "expr" (M.str s) := by
  funext x
  simp only [Locals.scope, Locals.set, Locals.ofScope, Scope.bind]
  split
  · rfl
  · cases sc x <;> rfl

/-- The payload of a value. -/
def madeOf (M : Machine Ty) (sc : Scope Ty) (e : Value) : Payload Ty :=
  ⟨e.text, M.eval (sc.bind "expr" (M.str e.text)) e⟩

theorem computes_toString {L : Locals Ty} (s : String) :
    Computes M L (tkAbs ["std", "string", "ToString", "to_string"] ++ [tkParen [tkStr s]]) (.owned s) :=
  .call absPath_tkAbs .str .toString

theorem computes_pair (sc : Scope Ty) (p : String × Value) :
    Computes M (Locals.ofScope sc) [pairTokens p] (.pair (.owned p.1) (.payload (madeOf M sc p.2))) := by
  have h2 : ∀ {L : Locals Ty}, L = Locals.ofScope sc → Computes M (L.set "expr" (.owned p.2.text))
      (tkAbs ["std", "rc", "Rc", "new"] ++ [tkParen [.valueHole p.2 .callSite]]) (.rc (madeOf M sc p.2).value) := by
    rintro L rfl
    have h := Computes.call (M := M) (L := (Locals.ofScope sc).set "expr" (.owned p.2.text)) (sp := .callSite)
      (absPath_tkAbs (x := "std") (l := ["rc", "Rc", "new"])) (.user (e := p.2) (sp := .callSite)) .rc
    rw [set_scope] at h
    exact h
  have h3 : ∀ {L : Locals Ty} {s : String} {d : Dyn Ty}, Computes M ((L.set "expr" (.owned s)).set "value" (.rc d))
      (tkAbs ["hooq", "BindingPayload"] ++ [tkBrace [tkId "expr", tkP ',', tkId "value", tkP ',']])
      (.payload ⟨s, d⟩) := fun {L s d} =>
    .make absPath_tkAbs (.short (v := .owned s) (by simp [Locals.set])
      (.short (v := .rc d) (by simp [Locals.set]) .nil)) (.payload (.refl _))
  have ht : AnyType (tkAbs ["std", "rc", "Rc"] ++ [tkP '<', tkId "dyn"] ++ tkAbs ["std", "any", "Any"] ++ [tkP '>']) := by
    simpa [tkP, tkId] using AnyType.mk (s1 := .callSite) (s2 := .callSite) (s3 := .callSite)
      (absPath_tkAbs (x := "std") (l := ["rc", "Rc"])) (absPath_tkAbs (x := "std") (l := ["any", "Any"]))
  have hb := Computes.block (sp := .callSite) (Body.bind (s1 := .callSite) (s2 := .callSite) (s3 := .callSite) (s4 := .callSite)
    (computes_toString p.2.text) (.bindAny (s1 := .callSite) (s2 := .callSite) (s3 := .callSite) (s4 := .callSite)
      (s5 := .callSite) ht (h2 rfl) (.last (h3 (L := Locals.ofScope sc)))))
  have := Computes.pair (sp := .callSite) (sp' := .callSite) (computes_toString p.1) hb
  simpa [pairTokens, tkParen, tkBrace, tkLet, tkP, tkId, madeOf] using this

theorem computes_pairs (sc : Scope Ty) : ∀ l : List (String × Value),
    Elements M (Locals.ofScope sc) (pairsTokens l)
      ((l.map fun p => (p.1, madeOf M sc p.2)).map fun e => .pair (.owned e.1) (.payload e.2))
  | [] => .nil
  | [p] => .one (computes_pair sc p)
  | p :: q :: l => .cons (computes_pair sc p) (computes_pairs sc (q :: l))

theorem computes_bindings (sc : Scope Ty) (l : List (String × Value)) :
    Computes M (Locals.ofScope sc) (bindingsTokens l) (.table (runBindings M.eval M.str sc l)) :=
  .call absPath_tkAbs (.array (computes_pairs sc l)) .table

theorem computes_meta (sc : Scope Ty) (src : String) (m : MetaRec) :
    Computes M (Locals.ofScope sc) (metaTokens src m) (.record src (runMeta M.eval M.str sc m)) := by
  have h := Computes.make (M := M) (L := Locals.ofScope sc) (sp := .callSite) (absPath_tkAbs (x := "hooq") (l := ["HooqMeta"]))
    (.cons (x := "line") (s1 := .callSite) (s2 := .callSite) (s3 := .callSite) (.num (n := m.line) (sp := .callSite))
    (.cons (x := "column") (s1 := .callSite) (s2 := .callSite) (s3 := .callSite) (.num (n := m.col) (sp := .callSite))
    (.cons (x := "path") (s1 := .callSite) (s2 := .callSite) (s3 := .callSite) (.str (s := m.path) (sp := .callSite))
    (.cons (x := "file") (s1 := .callSite) (s2 := .callSite) (s3 := .callSite) (.str (s := m.file) (sp := .callSite))
    (.cons (x := "source_str") (s1 := .callSite) (s2 := .callSite) (s3 := .callSite) (.str (s := src) (sp := .callSite))
    (.cons (x := "count") (s1 := .callSite) (s2 := .callSite) (s3 := .callSite) (.str (s := m.count) (sp := .callSite))
    (.cons (x := "bindings") (s1 := .callSite) (s2 := .callSite) (s3 := .callSite) (computes_bindings sc m.bindings)
      .nil))))))) (.record (.refl _))
  simpa [metaTokens, tkBrace, tkId, tkP, tkStr, runMeta] using h

/-- C93.  The code behind `$bindings` computes one value, the hash map from the names of
the bindings to their payloads. -/
theorem C93_bindings (M : Machine Ty) (sc : Scope Ty) (l : List (String × Value)) (v : RVal Ty) :
    Computes M (Locals.ofScope sc) (bindingsTokens l) v ↔ v = .table (runBindings M.eval M.str sc l) :=
  ⟨fun h => h.unique (computes_bindings sc l), fun e => e ▸ computes_bindings sc l⟩

/-- C93.  The code behind `$hooq_meta` computes one value, the record of the place, the
count, the source and the bindings. -/
theorem C93_meta (M : Machine Ty) (sc : Scope Ty) (src : String) (m : MetaRec) (v : RVal Ty) :
    Computes M (Locals.ofScope sc) (metaTokens src m) v ↔ v = .record src (runMeta M.eval M.str sc m) :=
  ⟨fun h => h.unique (computes_meta sc src m), fun e => e ▸ computes_meta sc src m⟩

/-- C93.  So what `get_binding` gives on the value of the code behind `$hooq_meta` is what
the bindings say: the value of the expression with the variable `expr` in front. -/
theorem C93_get_binding (M : Machine Ty) (sc : Scope Ty) (src : String) {m : MetaRec} {b : String → Option Value}
    (hl : Listing b m.bindings) {src' : String} {h : HooqMeta Ty}
    (hc : Computes M (Locals.ofScope sc) (metaTokens src m) (.record src' h)) :
    src' = src ∧ h.line = m.line ∧ h.column = m.col ∧ h.path = m.path ∧ h.file = m.file ∧ h.count = m.count ∧
    (∀ k p, BoundTo h.bindings k p ↔ ∃ e, b k = some e ∧ p.expr = e.text ∧
      p.value = M.eval (sc.bind "expr" (M.str e.text)) e) ∧
    ∀ t k v, h.getBinding t k = some v ↔ ∃ e, b k = some e ∧ M.eval (sc.bind "expr" (M.str e.text)) e = ⟨t, v⟩ := by
  obtain ⟨rfl, rfl⟩ := RVal.record.inj ((C93_meta M sc src m _).1 hc)
  refine ⟨rfl, rfl, rfl, rfl, rfl, rfl, fun k p => ?_, fun t k v => ?_⟩
  · simp only [runMeta, runBindings_bound M.eval M.str sc hl]
    constructor
    · rintro ⟨e, he, rfl⟩
      exact ⟨e, he, rfl, rfl⟩
    · rintro ⟨e, he, h1, h2⟩
      obtain ⟨_, _⟩ := p
      exact ⟨e, he, by rw [← h2, ← h1]⟩
  · rw [C49_get_binding _ (runBindings_nodup M.eval M.str sc m.bindings)]
    simp only [runMeta, runBindings_bound M.eval M.str sc hl]
    constructor
    · rintro ⟨_, e, e1, e2⟩
      exact ⟨e, e1, (congrArg Payload.value e2).symm⟩
    · rintro ⟨e, e1, e2⟩
      exact ⟨e.text, e, e1, by rw [e2]⟩

section

/-- Type 0 is `usize`, type 1 is `String`; an expression is the variable of its text, or 7. -/
def Ex.machine : Machine (fun t => if t = 1 then String else Nat) :=
  { eval := fun sc v => (sc v.text).getD ⟨0, (7 : Nat)⟩, str := fun s => ⟨1, s⟩, other := fun _ => ⟨0, (0 : Nat)⟩ }

/-- Two bindings, `a = expr` and `b = x`, where `expr` is 5. -/
example : ∃ h, Computes Ex.machine (Locals.ofScope fun x => if x = "expr" then some ⟨0, (5 : Nat)⟩ else none)
    (metaTokens "f()?" ⟨3, 9, "src/lib.rs", "lib.rs", "1st ?", [("a", ⟨.other, "expr"⟩), ("b", ⟨.other, "x"⟩)]⟩)
      (.record "f()?" h) ∧
    h.line = 3 ∧ h.column = 9 ∧ h.getBinding 1 "a" = some "expr" ∧ h.getBinding 0 "b" = some (7 : Nat) :=
  ⟨_, (C93_meta _ _ _ _ _).2 rfl, rfl, rfl, rfl, rfl⟩

/-- A pair whose key is not made a `String` is in no hash map. -/
example (v : RVal Ty) : ¬ Computes M L (tkAbs ["std", "collections", "HashMap", "from"] ++
    [tkParen [.group .bracket [tkParen [tkStr "a", tkP ',', tkStr "b"]] .callSite]]) v := by
  intro h
  obtain ⟨_, w, h1, h2⟩ | ⟨e, _⟩ := h.applied absPath_tkAbs
  · have h3 : Computes M L [.group .bracket [tkParen [tkStr "a", tkP ',', tkStr "b"]] .callSite]
        (.array [.pair (.slice "a") (.slice "b")]) :=
      .array (.one (.pair (ts := [tkStr "a"]) (us := [tkStr "b"]) .str .str))
    obtain rfl := h1.unique h3
    generalize hf : ["std", "collections", "HashMap", "from"] = f at h2
    generalize hu : RVal.array [.pair (.slice "a") (.slice "b")] = u at h2
    cases h2 with
    | toString => simp at hf
    | rc => simp at hf
    | table =>
      rename_i l
      cases l <;> simp at hu
  · simp at e

end

end Hooq
