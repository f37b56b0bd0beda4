import Verif.Proof.Reread

/-!
# A second expansion (C67)

An item inside the annotated item can carry `#[hooq]` itself (C20).  The compiler
expands it after the outer one, from the tokens that the outer expansion left
(`Spec/Reread.lean`).
-/

namespace Hooq

theorem upFrom_acc (t : RTree) (p : List Nat) (acc : List Data) :
    t.upFrom acc p = (t.upFrom [] p).map (· ++ acc) := by
  induction p generalizing t acc with
  | nil => cases t; rfl
  | cons i p ih =>
    obtain ⟨d, ms, ks⟩ := t
    simp only [RTree.upFrom]
    split
    · rename_i k hk
      rw [ih k (d :: acc), ih k [d], Option.map_map]
      congr 1
      funext l
      simp
    · rfl

theorem upFrom_split {t : RTree} {acc up : List Data} {p r : List Nat} (h : t.upFrom acc (p ++ r) = some up) :
    ∃ n a, t.sub p = some n ∧ t.upFrom acc p = some (n.data :: a) ∧ n.upFrom a r = some up := by
  induction p generalizing t acc with
  | nil => obtain ⟨d, ms, ks⟩ := t; exact ⟨_, acc, rfl, rfl, h⟩
  | cons i p ih =>
    obtain ⟨d, ms, ks⟩ := t
    simp only [List.cons_append, RTree.upFrom] at h
    split at h
    · rename_i k hk
      obtain ⟨n, a, h1, h2, h3⟩ := ih h
      exact ⟨n, a, by simp only [RTree.sub, hk]; exact h1, by simp only [RTree.upFrom, hk]; exact h2, h3⟩
    · simp at h

theorem upFrom_kid {t n k : RTree} {acc up : List Data} {p : List Nat} {i : Nat} (h : t.upFrom acc p = some up)
    (hn : t.sub p = some n) (hk : n.kids[i]? = some k) : t.upFrom acc (p ++ [i]) = some (k.data :: up) := by
  induction p generalizing t acc with
  | nil =>
    obtain ⟨d, ms, ks⟩ := t
    obtain rfl := Option.some.inj hn
    obtain rfl := Option.some.inj h
    obtain ⟨dk, mk, kk⟩ := k
    simp only [RTree.kids_mk] at hk
    simp [RTree.upFrom, hk]
  | cons j p ih =>
    obtain ⟨d, ms, ks⟩ := t
    simp only [List.cons_append, RTree.upFrom, RTree.sub] at h hn ⊢
    split at h
    · rename_i k hk
      simp only [hk] at hn ⊢
      exact ih h hn
    · simp at h

theorem after_edge (env : Env) (s : Settings) (d : Data) (up : List Data) : (d.after env s up).edge = d.edge := by
  simp only [Data.after]; split <;> rfl

theorem after_mode (env : Env) (s : Settings) (d : Data) (up : List Data) : (d.after env s up).mode = d.mode := by
  simp only [Data.after]; split <;> rfl

theorem after_mac {env : Env} {s : Settings} {d : Data} {up : List Data} (h : (d.after env s up).tag = .mac) :
    d.tag = .mac := by
  simp only [Data.after] at h
  split at h
  · cases ht : d.tag <;> simp [ht] at h ⊢
  · exact h

theorem after_clean {env : Env} {s : Settings} {d : Data} {up : List Data} :
    ∀ a ∈ (d.after env s up).seen, a.isInert = false := by
  intro a ha
  simp only [Data.after] at ha
  split at ha
  · simp only [Data.seen] at ha
    split at ha <;> (try split at ha) <;> simp at ha
  · simp only [Data.seen, Data.kept] at ha
    cases hm : d.mode <;> simp [hm] at ha
    · exact ha.2
    · obtain ⟨h1, h2⟩ := ha
      rw [if_neg h1] at h2
      simp only [List.mem_filter, Bool.not_eq_true'] at h2
      exact h2.2

/-- What the first expansion leaves on the way to a reached position. -/
theorem first_way {env : Env} {args : List Meta} {s : Settings} {i i' : Item}
    {uses : List Path} (hs : rootSettings env args = .ok s) (hb : s.bindings.keys.Nodup)
    (h : hooqImpls env args i = .ok (uses, i')) {p r : List Nat} {d : Data} {up : List Data}
    (hu : i.chain (p ++ r) = some (d :: up)) (hr : reached env s (d :: up) = true) :
    ∃ z y upz, i.tree.sub p = some z ∧ i.chain p = some (z.data :: upz) ∧ reached env s (z.data :: upz) = true ∧
      i'.tree.sub p = some y ∧ y.data = z.data.after env s upz ∧ y.data.edge = z.data.edge ∧
      (∀ a ∈ y.data.seen, a.isInert = false) ∧ y.data.edge.visit = true ∧
      (y.data.tag = .mac → z.data.tag = .mac) ∧ Consumed y := by
  obtain ⟨z, upz, h1, h2, h3⟩ := upFrom_split hu
  have hrz : reached env s (z.data :: upz) = true := by
    obtain ⟨l, hl⟩ := upFrom_suffix h3
    rw [hl] at hr
    exact reached_suffix _ _ hr
  obtain ⟨c', hw⟩ := expansion hs h
  have h4 := (C60_effect hs hb h).2 p _ _ h2
  rw [if_pos hrz] at h4
  obtain ⟨n, y, g1, g2, g3, g4⟩ := h4
  refine ⟨z, y, upz, h1, h2, hrz, g2, g3, ?_, ?_, ?_, ?_, ?_⟩
  · rw [g3, after_edge]
  · rw [g3]; exact after_clean
  · rw [g3, after_edge]
    rw [reached_cons] at hrz; simp only [Bool.and_eq_true] at hrz; exact hrz.1.1
  · rw [g3]; exact after_mac
  · intro q hq
    have hc : z.data.tag.isQuestion = true := by
      rw [g3, Data.after] at hq
      split at hq
      · cases ht : z.data.tag <;> simp [ht] at hq ⊢; rfl
      · simp only at hq; rw [hq]; rfl
    cases ht : z.data.tag with
    | question q0 b =>
      obtain ⟨n0, y0, k', j1, j2, j3, j4, j5, j6, j7⟩ :=
        question_at (wfItem {} i) hb (agrees_new env s) hw h2 ht hrz
      rw [g2] at j2; obtain rfl := Option.some.inj j2
      rw [hq] at j7
      simp only [Tag.question.injEq] at j7
      have hh : hookedAt env s (z.data :: upz) .question = true := by
        have := j7.2.symm
        simp only [Bool.and_eq_true] at this
        exact this.1
      rw [if_pos hh] at j6
      obtain ⟨hk, m, e1, -⟩ := j6
      refine ⟨k', j5, ?_, by simp [e1]⟩
      have hwf := WF_sub (wfItem {} i') g2
      obtain ⟨dy, my, ky⟩ := y
      simp only [RTree.data_mk] at hq
      simp only [RTree.WF, nodeOk, hq] at hwf
      obtain ⟨⟨⟨k, hk1, hk2⟩, -⟩, -⟩ := hwf
      simp only [RTree.kids_mk] at j5
      rw [hk1] at j5
      simp only [List.cons.injEq, and_true] at j5
      rw [← j5]; exact hk2
    | ret | call | path _ | mac | other _ => simp [ht, Tag.isQuestion] at hc

/-- Two trees with the same edges on the way have chains with the same edges. -/
theorem chain_edges {p : List Nat} : ∀ {t t' : RTree} {u u' : List Data}, t.upFrom [] p = some u → t'.upFrom [] p = some u' →
    (∀ r y y', r <+: p → t.sub r = some y → t'.sub r = some y' → y'.data.edge = y.data.edge) →
    u'.map (·.edge) = u.map (·.edge) := by
  induction p with
  | nil =>
    intro t t' u u' h1 h2 he
    obtain ⟨d, ms, ks⟩ := t
    obtain ⟨d', ms', ks'⟩ := t'
    simp only [RTree.upFrom, Option.some.injEq] at h1 h2
    subst h1 h2
    simpa using he [] _ _ (by simp) rfl rfl
  | cons i p ih =>
    intro t t' u u' h1 h2 he
    obtain ⟨d, ms, ks⟩ := t
    obtain ⟨d', ms', ks'⟩ := t'
    have h0 := he [] _ _ (by simp) rfl rfl
    simp only [RTree.upFrom] at h1 h2
    split at h1
    case h_2 => simp at h1
    rename_i k hk
    split at h2
    case h_2 => simp at h2
    rename_i k' hk'
    rw [upFrom_acc] at h1 h2
    obtain ⟨v, h3, rfl⟩ := Option.map_eq_some_iff.1 h1
    obtain ⟨v', h4, rfl⟩ := Option.map_eq_some_iff.1 h2
    have := ih h3 h4 fun r y y' hr hy hy' => he (i :: r) y y' (by simpa using hr)
      (by simp only [RTree.sub, hk]; exact hy) (by simp only [RTree.sub, hk']; exact hy')
    simp only [List.map_append, this, List.map_cons, List.map_nil]
    simpa using h0

theorem innermostFn_edges (u : List Data) : innermostFn u = (u.map (·.edge)).findSome? (·.fn) := by
  rw [innermostFn, List.findSome?_map]
  rfl

theorem upFrom_length {t : RTree} {acc u : List Data} {p : List Nat} (h : t.upFrom acc p = some u) :
    u.length = acc.length + p.length + 1 := by
  induction p generalizing t acc with
  | nil => obtain ⟨d, ms, ks⟩ := t; simp only [RTree.upFrom, Option.some.injEq] at h; subst h; simp
  | cons i p ih =>
    obtain ⟨d, ms, ks⟩ := t
    simp only [RTree.upFrom] at h
    split at h
    · rw [ih h]; simp; omega
    · simp at h

/-- The position of a reached node below the inner item, in the tree that the second
expansion starts from. -/
theorem second_at {env : Env} {args : List Meta} {s : Settings} {i i' : Item}
    {uses : List Path} (hs : rootSettings env args = .ok s) (hb : s.bindings.keys.Nodup)
    (h : hooqImpls env args i = .ok (uses, i')) {ops : HookData → List Layer} (ho : ∀ hk, ops hk ≠ [])
    {p q : List Nat} {n' : RTree} (hn : i'.tree.sub p = some n') {attrs : List Attr} (ha : ∀ a ∈ attrs, a ∈ n'.data.attrs)
    {j : Item} (hj : j.tree = rereadItem ops attrs n') (B : Bool)
    (hm : ∀ r z, r <+: q → r ≠ q → i.tree.sub (p ++ r) = some z → z.data.tag = .mac → B = true)
    {d : Data} {up : List Data} (hu : i.chain (p ++ q) = some (d :: up)) (hr : reached env s (d :: up) = true)
    (hq : q ≠ []) :
    ∃ x e acc, i'.tree.sub (p ++ q) = some x ∧ x.data = d.after env s up ∧
      j.tree.sub (relocateItem ops n' q) = some (reread ops e (landingItem ops n' q) x) ∧
      (∀ r, j.tree.upFrom [] (relocateItem ops n' q ++ r) = (reread ops e (landingItem ops n' q) x).upFrom acc r) ∧
      Fits B acc ∧ e.visit = true ∧ e.fn.or (innermostFn acc) = innermostFn ((d :: up).take q.length) ∧
      (e = d.edge ∨ d.edge = {} ∧ landingItem ops n' q ++ layersOf ops x.marks ≠ []) ∧
      (∀ a ∈ x.data.seen, a.isInert = false) := by
  obtain ⟨m, qs, rfl⟩ := List.exists_cons_of_ne_nil hq
  obtain ⟨zp, yp, upp, p1, p2, p3, p4, p5, p6, p7, p8, p9, p10⟩ := first_way hs hb h hu hr
  rw [hn] at p4; obtain rfl := Option.some.inj p4
  obtain ⟨zq, x, upq, x1, x2, x3, x4, x5, x6, x7, x8, x9, x10⟩ := first_way hs hb h (p := p ++ m :: qs) (r := [])
    (by rw [List.append_nil]; exact hu) hr
  have hzq : zq.data = d ∧ upq = up := by
    rw [hu] at x2
    have := Option.some.inj x2
    simp only [List.cons.injEq] at this
    exact ⟨this.1.symm, this.2.symm⟩
  obtain ⟨hzq, rfl⟩ := hzq
  have hway : ∀ r y, r <+: m :: qs → n'.sub r = some y → ∃ z, zp.sub r = some z ∧ y.data.edge = z.data.edge ∧
      (∀ a ∈ y.data.seen, a.isInert = false) ∧ y.data.edge.visit = true ∧
      (y.data.tag = .mac → r ≠ m :: qs → B = true) ∧ Consumed y := by
    intro r y hrq hy
    obtain ⟨r2, hr2⟩ := hrq
    obtain ⟨z, y0, upz, z1, z2, z3, z4, z5, z6, z7, z8, z9, z10⟩ := first_way hs hb h (p := p ++ r) (r := r2)
      (by rw [List.append_assoc, hr2]; exact hu) hr
    rw [sub_append hn, hy] at z4
    obtain rfl := Option.some.inj z4
    refine ⟨z, by rw [← sub_append p1]; exact z1, z6, z7, z8, fun h1 h2 => hm r z ⟨r2, hr2⟩ h2 z1 (z9 h1), z10⟩
  obtain ⟨dn, ms, ks⟩ := n'
  obtain ⟨dz, mz, kz⟩ := zp
  rw [sub_append hn] at x4
  have hk : ∃ k, ks[m]? = some k ∧ k.sub qs = some x := by
    simp only [RTree.sub] at x4
    split at x4
    · exact ⟨_, by assumption, x4⟩
    · simp at x4
  obtain ⟨k, hk, hkx⟩ := hk
  rw [RTree.data_mk] at p2 p6 p7 p9 ha
  have hroot : Fits B [{ dn with edge := {}, attrs := attrs }] := by
    refine Fits.cons ⟨by simp [CleanUp], by simp, by simp⟩ ?_ rfl ?_
    · intro a h1
      cases hmd : dn.mode with
      | handled =>
        rw [seen_handled (by exact hmd)] at h1
        exact p7 a (by rw [seen_handled hmd]; exact ha a h1)
      | tailOnly | untouched | dropped => simp [Data.seen, hmd] at h1
    · intro h1
      exact hm [] (.mk dz mz kz) (by simp) (by simp) (by rw [List.append_nil]; exact p1) (p9 h1)
  have hkway : ∀ r y, r <+: qs → k.sub r = some y → (∀ a ∈ y.data.seen, a.isInert = false) ∧ y.data.edge.visit = true ∧
      (y.data.tag = .mac → r ≠ qs → B = true) ∧ Consumed y := by
    intro r y hrq hy
    obtain ⟨z, -, -, z1, z2, z3, z4⟩ := hway (m :: r) y (by simpa using hrq) (by simp only [RTree.sub, hk]; exact hy)
    exact ⟨z1, z2, fun h1 h2 => z3 h1 (by simpa using h2), z4⟩
  obtain ⟨e, up0, acc, g1, g2, g3, g4, g5, g6, g7⟩ := reread_at (B := B) ho qs k x [] k.data.edge [{ dn with edge := {}, attrs := attrs }]
    [{ dn with edge := {}, attrs := attrs }] hkx hkway (hkway [] k (by simp) (by cases k; rfl)).2.1 hroot
    (innermostFn_cons _ _).symm (.inl rfl)
  have hget := rereadList_get (ops := ops) (above := []) hk
  rw [ite_self] at hget
  refine ⟨x, e, acc, by rw [sub_append hn]; exact x4, by rw [x5, hzq], ?_, fun r => ?_, g4, g5, ?_, ?_, x7⟩
  · rw [hj]
    simp only [rereadItem, relocateItem, landingItem, hk, RTree.sub, hget]
    exact g1
  · rw [hj]
    simp only [rereadItem, relocateItem, landingItem, hk, List.cons_append, RTree.upFrom, hget]
    exact g2 r
  · rw [g6]
    -- the chain of the source
    obtain ⟨zp', a, b1, b2, b3⟩ := upFrom_split hu
    rw [p1] at b1; obtain rfl := Option.some.inj b1
    simp only [RTree.upFrom] at b3
    split at b3
    case h_2 => simp at b3
    rename_i k0 hk0
    rw [upFrom_acc] at b3 g3
    obtain ⟨v, c1, c2⟩ := Option.map_eq_some_iff.1 b3
    obtain ⟨v', c3, c4⟩ := Option.map_eq_some_iff.1 g3
    have he := chain_edges c1 c3 fun r y y' hrq hy hy' => by
      obtain ⟨z, z1, z2, -⟩ := hway (m :: r) y' (by simpa using hrq) (by simp only [RTree.sub, hk]; exact hy')
      simp only [RTree.sub, hk0, hy] at z1
      rw [z2, Option.some.inj z1]
    have hl := upFrom_length c1
    rw [← c2, ← c4, innermostFn_edges, innermostFn_edges]
    have : (v ++ dz :: a).take (m :: qs).length = v := by
      rw [List.take_append_of_le_length (by simp [hl]), List.take_of_length_le (by simp [hl])]
    rw [this, List.map_append, List.findSome?_append, he]
    simp
  · rcases g7 with g7 | ⟨g7, g8⟩
    · left; rw [g7, x6, hzq]
    · right
      refine ⟨by rw [← hzq, ← x6]; exact g7, ?_⟩
      simpa [landingItem, hk] using g8

/-! ## The outermost operator -/

/-- The first operator, if there is one, is no call and no `?`. -/
def PlainHead (ls : List Layer) : Prop := ∀ l r, ls = l :: r → ∃ n, l.tag = .other n

theorem plainHead_append {a b : List Layer} (ha : PlainHead a) (hb : PlainHead b) : PlainHead (a ++ b) := by
  intro l r h
  cases a with
  | nil => exact hb l r h
  | cons x a =>
    simp only [List.cons_append, List.cons.injEq] at h
    obtain ⟨rfl, -⟩ := h
    exact ha x a rfl

theorem plainHead_layersOf {ops : HookData → List Layer} (hp : ∀ hk, PlainHead (ops hk)) (ms : List (HookData × RTree)) :
    PlainHead (layersOf ops ms) := by
  simp only [layersOf]
  induction ms.reverse with
  | nil => intro l r h; simp at h
  | cons m ms ih =>
    rw [List.flatMap_cons]
    exact plainHead_append (hp m.1) ih

theorem plainHead_nil : PlainHead [] := fun _ _ h => by simp at h

theorem plainHead_landing {ops : HookData → List Layer} (hp : ∀ hk, PlainHead (ops hk)) : ∀ (p : List Nat) (t : RTree)
    (above : List Layer), PlainHead above → PlainHead (landing ops above t p)
  | [], t, above, h => by cases t; exact h
  | i :: p, .mk d ms ks, above, h => by
    have h2 := plainHead_append h (plainHead_layersOf hp ms)
    simp only [landing]
    split
    · exact plainHead_nil
    · split
      · exact plainHead_landing hp p _ _ h2
      · apply plainHead_landing hp p
        split
        · exact h2
        · exact plainHead_nil
      · exact plainHead_landing hp p _ _ plainHead_nil

theorem plainHead_landingItem {ops : HookData → List Layer} (hp : ∀ hk, PlainHead (ops hk)) (t : RTree) (p : List Nat) :
    PlainHead (landingItem ops t p) := by
  obtain ⟨d, ms, ks⟩ := t
  cases p with
  | nil => exact plainHead_nil
  | cons i p =>
    simp only [landingItem]
    split
    · exact plainHead_nil
    · exact plainHead_landing hp p _ _ plainHead_nil

theorem wrap_edge {f : Edge → List Attr → RTree} (hf : ∀ e a, (f e a).data.edge = e) (ls : List Layer) (ed : Edge)
    (attrs : List Attr) : (wrap f ls ed attrs).data.edge = ed := by
  cases ls with
  | nil => exact hf ed attrs
  | cons l ls => rfl

theorem reread_edge {ops : HookData → List Layer} : ∀ (t : RTree) (ed : Edge) (above : List Layer),
    (reread ops ed above t).data.edge = ed
  | .mk d ms ks, ed, above => by
    simp only [reread]
    split
    · cases ks with
      | nil => rfl
      | cons k ks => simp only [rereadHead]; exact reread_edge k ed _
    · rfl
    · exact wrap_edge (fun _ _ => rfl) _ _ _

/-- With operators on it, what is read is no call, no path and no `?`. -/
theorem reread_tag {ops : HookData → List Layer} (hp : ∀ hk, PlainHead (ops hk)) : ∀ (t : RTree) (ed : Edge)
    (above : List Layer), PlainHead above → above ++ layersOf ops t.marks ≠ [] →
    (∃ n, (reread ops ed above t).data.tag = .other n) ∨ (reread ops ed above t).data.tag = .ret
  | .mk d ms ks, ed, above, h, hne => by
    have h2 := plainHead_append h (plainHead_layersOf hp ms)
    simp only [RTree.marks_mk] at hne
    simp only [reread]
    split
    · cases ks with
      | nil => exact .inl ⟨_, rfl⟩
      | cons k ks =>
        simp only [rereadHead]
        exact reread_tag hp k ed _ h2 (by simp only [ne_eq, List.append_eq_nil_iff, not_and] at hne ⊢; intro h3; exact absurd h3.2 (hne h3.1))
    · rename_i hf
      simp only [Data.follow] at hf
      split at hf
      · cases hf
      · rename_i ht _ _; exact .inl ⟨_, ht⟩
      · rename_i ht _ _; exact .inr ht
      · cases hf
    · obtain ⟨l, ls, hl⟩ := List.exists_cons_of_ne_nil hne
      rw [hl]
      exact .inl (h2 l ls hl)

theorem callee_of_tag {t : RTree} (h : (∃ n, t.data.tag = .other n) ∨ t.data.tag = .ret) : t.bare.callee = none := by
  obtain ⟨d, ms, ks⟩ := t
  simp only [RTree.data_mk] at h
  rcases h with ⟨n, h⟩ | h <;> simp [RTree.bare, RTree.callee, h]

/-- The place of the node itself, under the operators on it. -/
def nodeAt (ops : HookData → List Layer) (n' : RTree) (q : List Nat) (x : RTree) : List Nat :=
  relocateItem ops n' q ++
    (match x.data.follow with
    | .wrap => List.replicate (landingItem ops n' q ++ layersOf ops x.marks).length 0
    | _ => [])

/-! ## C67 -/

/-- Two expansions: of `i`, and then of an item in its output.  `p` is the place of the
inner item, `n'` the inner item in the output of the first expansion, and `j` what the
second expansion gets: the tokens of `n'` read again, without the attribute that
started the expansion. -/
structure Twice (env env2 : Env) (s s2 : Settings) (i i' j j' : Item) (p : List Nat) (n' : RTree)
    (ops : HookData → List Layer) : Prop where
  first : ∃ args uses, rootSettings env args = .ok s ∧ hooqImpls env args i = .ok (uses, i')
  inner : i'.tree.sub p = some n'
  some : ∀ hk, ops hk ≠ []
  read : ∃ attrs, (∀ a ∈ attrs, a ∈ n'.data.attrs) ∧ j.tree = rereadItem ops attrs n'
  second : ∃ args uses, rootSettings env2 args = .ok s2 ∧ hooqImpls env2 args j = .ok (uses, j')
  nodup : s.bindings.keys.Nodup
  nodup2 : s2.bindings.keys.Nodup

/-- No macro is on the way from `p` to `p ++ q`. -/
def NoMacro (i : Item) (p q : List Nat) : Prop :=
  ∀ r z, r <+: q → r ≠ q → i.tree.sub (p ++ r) = some z → z.data.tag ≠ .mac

/-- The declared type is one of the result types. -/
def RetType.among (r : RetType) (l : List String) : Bool :=
  match r with
  | .path p => endsIn (some p) l
  | _ => false

theorem resultAt_of {env : Env} {s : Settings} {u v : List Data} (hc : CleanUp u) (h : innermostFn u = innermostFn v) :
    resultAt env s u = (outputAt v).among s.resultTypes := by
  have : outputAt u = outputAt v := by simp only [outputAt, h]
  rw [resultAt, this, hc.resultTypes]
  rfl

/-- The node itself in the second expansion. -/
theorem second_node {env env2 : Env} {s s2 : Settings} {i i' j j' : Item} {p q : List Nat} {n' : RTree}
    {ops : HookData → List Layer} (ht : Twice env env2 s s2 i i' j j' p n' ops)
    {d : Data} {up : List Data} (hu : i.chain (p ++ q) = some (d :: up)) (hr : reached env s (d :: up) = true)
    (hm : NoMacro i p q ∨ s2.hookInMacros = true) (hq : q ≠ []) {x : RTree} (hx : i'.tree.sub (p ++ q) = some x)
    (hf : x.data.follow ≠ .drop) :
    ∃ dn acc ks above, j.tree.sub (nodeAt ops n' q x) = some (.mk dn [] ks) ∧
      j.chain (nodeAt ops n' q x) = some (dn :: acc) ∧ dn.tag = x.data.tag ∧ Fits s2.hookInMacros acc ∧
      dn.edge.visit = true ∧ CleanUp (dn :: acc) ∧ innermostFn (dn :: acc) = innermostFn ((d :: up).take q.length) ∧
      ks = rereadList ops above x.kids ∧ ((∀ hk, PlainHead (ops hk)) → PlainHead above) := by
  obtain ⟨⟨args, uses, f1, f2⟩, f3, f4, ⟨attrs, f5, f6⟩, -, f7, f8⟩ := ht
  obtain ⟨x0, e, acc, g1, g2, g3, g4, g5, g6, g7, g8, g9⟩ := second_at f1 f7 f2 f4 f3 f5 f6 s2.hookInMacros
    (fun r z h1 h2 h3 h4 => by
      rcases hm with hm | hm
      · exact absurd h4 (hm r z h1 h2 h3)
      · exact hm) hu hr hq
  rw [hx] at g1; obtain rfl := Option.some.inj g1
  obtain ⟨dx, ms, ks⟩ := x
  simp only [RTree.data_mk, RTree.marks_mk] at g2 g8 g9 hf
  cases hfo : dx.follow with
  | drop => exact absurd hfo hf
  | sink =>
    have hmode := follow_sink hfo
    have hR : reread ops e (landingItem ops n' q) (.mk dx ms ks) =
        .mk { dx with edge := e } [] (rereadList ops (landingItem ops n' q ++ layersOf ops ms) ks) := by
      simp [reread, hfo]
    have hN : nodeAt ops n' q (.mk dx ms ks) = relocateItem ops n' q := by simp [nodeAt, hfo]
    refine ⟨{ dx with edge := e }, acc, _, landingItem ops n' q ++ layersOf ops ms, ?_, ?_, rfl, g5, g6, ?_, ?_, rfl, ?_⟩
    · rw [hN, g3, hR]; rfl
    · have := g4 []
      rw [List.append_nil] at this
      rw [hN, Item.chain, this, hR]
      rfl
    · intro y hy
      rcases List.mem_cons.1 hy with rfl | hy
      · intro a ha
        rw [seen_handled (by exact hmode)] at ha
        exact g9 a (by rwa [seen_handled hmode])
      · exact g5.clean y hy
    · rw [innermostFn_cons]; exact g7
    · intro hp
      exact plainHead_append (plainHead_landingItem hp _ _) (plainHead_layersOf hp _)
  | wrap =>
    have hR : reread ops e (landingItem ops n' q) (.mk dx ms ks) =
        wrap (fun e a => .mk (dx.under e a) [] (rereadList ops [] ks))
          (landingItem ops n' q ++ layersOf ops ms) e (if dx.mode = .handled then dx.attrs else []) := by
      simp [reread, hfo]
    have hN : nodeAt ops n' q (.mk dx ms ks) = relocateItem ops n' q ++
        (List.replicate (landingItem ops n' q ++ layersOf ops ms).length 0 ++ []) := by simp [nodeAt, hfo]
    have hat : ∀ a ∈ (if dx.mode = .handled then dx.attrs else []), a.isInert = false := by
      intro a ha
      split at ha
      · rename_i hm; exact g9 a (by rwa [seen_handled hm])
      · simp at ha
    obtain ⟨acc1, e1, a1, w1, w2, w3, w4, w5, w6, w7, w8⟩ := wrap_chain (B := s2.hookInMacros)
      (fun e a => .mk (dx.under e a) [] (rereadList ops [] ks)) (landingItem ops n' q ++ layersOf ops ms) e _ acc g5 g6 hat
    refine ⟨dx.under e1 a1, acc1, _, [], ?_, ?_, rfl, w1, w4, ?_, ?_, rfl, fun _ => plainHead_nil⟩
    · rw [hN, sub_append g3, hR, w3]
      rfl
    · rw [hN, Item.chain, g4, hR, w2]
      rfl
    · have hclean := under_clean (ed := e) (e := e1) g9 w6 (ls := landingItem ops n' q ++ layersOf ops ms)
        (g8.imp (fun h => by rw [h, g2, after_edge]) fun h => h.2) (fun h => (w7 h).1) (fun h => (w8 h).1)
      intro y hy
      rcases List.mem_cons.1 hy with rfl | hy
      · exact hclean
      · exact w1.clean y hy
    · rw [innermostFn_cons, ← g7, ← w5]; rfl

/-- C67.  A `?` inside the inner item that the first expansion reached and did not consume
is, whatever the first expansion did with it, a target of the second one, with the settings
of the inner `#[hooq]`: attributes inside the item, like `skip`, have no influence. -/
theorem C67_question {env env2 : Env} {s s2 : Settings} {i i' j j' : Item} {p q : List Nat} {n' : RTree}
    {ops : HookData → List Layer} (ht : Twice env env2 s s2 i i' j j' p n' ops)
    {d : Data} {up : List Data} (hu : i.chain (p ++ q) = some (d :: up)) (hr : reached env s (d :: up) = true)
    (hm : NoMacro i p q ∨ s2.hookInMacros = true) (hq : q ≠ []) {sp : Span} {b : Bool}
    (hd : d.tag = .question sp b) (hc : consumedAt env s d up = false) :
    ∃ x m m' k', i'.tree.sub (p ++ q) = some x ∧ j.tree.sub (nodeAt ops n' q x) = some m ∧
      m.data.tag = .question sp b ∧ j'.tree.sub (nodeAt ops n' q x) = some m' ∧ m'.kids = [k'] ∧
      if s2.targets.question then
        ∃ hk src, k'.marks = [(hk, src)] ∧ hk.kind = .question ∧ hk.mode = s2.method.mode
      else k'.marks = [] := by
  have ht0 := ht
  obtain ⟨⟨args, uses, f1, f2⟩, f3, f4, ⟨attrs, f5, f6⟩, ⟨args2, uses2, f9, f10⟩, f7, f8⟩ := ht0
  have h1 := (C60_effect f1 f7 f2).2 _ _ _ hu
  rw [if_pos hr] at h1
  obtain ⟨n, x, x1, x2, x3, x4⟩ := h1
  obtain ⟨c', hw⟩ := expansion f1 f2
  obtain ⟨n0, -, -, j1, -, -, j4, -⟩ := question_at (wfItem {} i) f7 (agrees_new env s) hw hu hd hr
  have hb : b = false := by
    obtain ⟨n1, upn, k1, k2⟩ := upFrom_sub hu
    rw [j1] at k1; obtain rfl := Option.some.inj k1
    rw [← (List.cons.inj k2).1, hd] at j4
    simpa using j4
  have htag : x.data.tag = .question sp b := by rw [x3, Data.after, hc]; exact hd
  obtain ⟨dn, acc, ks, above, g1, g2, g3, g4, g5, g6, g7, g8, -⟩ := second_node ht hu hr hm hq x2
    (by rw [Data.follow, htag, hb]; simp)
  have h2 := C01_question_placement f9 f8 f10 g2 (g3.trans htag)
  rw [if_pos (g4.reached g5)] at h2
  obtain ⟨m', k', m1, m2, m3⟩ := h2
  refine ⟨x, _, m', k', x2, g1, g3.trans htag, m1, m2, ?_⟩
  have hh := g6.hooked (env := env2) (s := s2) .question
  simp only [hookedAt, Targets.has] at hh
  rw [hh, g6.method] at m3
  exact m3

/-- C67.  A `return` inside the inner item: the second expansion decides with the settings
of the inner `#[hooq]`, the return type declared inside the inner item, and the value as it
is then.  If the first expansion hooked the value with a method that ends in a method call,
the value is no call of a path any more, so that only the return type counts. -/
theorem C67_return {env env2 : Env} {s s2 : Settings} {i i' j j' : Item} {p q : List Nat} {n' : RTree}
    {ops : HookData → List Layer} (ht : Twice env env2 s s2 i i' j j' p n' ops)
    {d : Data} {up : List Data} (hu : i.chain (p ++ q) = some (d :: up)) (hr : reached env s (d :: up) = true)
    (hm : NoMacro i p q ∨ s2.hookInMacros = true) (hq : q ≠ []) (hd : d.tag = .ret) :
    ∃ x m m', i'.tree.sub (p ++ q) = some x ∧ j.tree.sub (nodeAt ops n' q x) = some m ∧ m.data.tag = .ret ∧
      j'.tree.sub (nodeAt ops n' q x) = some m' ∧
      ((x.kids = [] ∧ m'.kids = []) ∨ ∃ v k', x.kids = [v] ∧ m'.kids = [k'] ∧
        (if s2.targets.ret && (endsIn k'.bare.callee s2.tailIdents ||
            ((outputAt ((d :: up).take q.length)).among s2.resultTypes &&
              !endsIn k'.bare.callee s2.ignoreIdents)) then
          ∃ hk src, k'.marks = [(hk, src)] ∧ hk.kind = .ret ∧ hk.mode = s2.method.mode
        else k'.marks = []) ∧
        (v.marks ≠ [] → (∀ hk, PlainHead (ops hk)) → k'.bare.callee = none)) := by
  have ht0 := ht
  obtain ⟨⟨args, uses, f1, f2⟩, f3, f4, ⟨attrs, f5, f6⟩, ⟨args2, uses2, f9, f10⟩, f7, f8⟩ := ht0
  have h1 := (C60_effect f1 f7 f2).2 _ _ _ hu
  rw [if_pos hr] at h1
  obtain ⟨n, x, x1, x2, x3, x4⟩ := h1
  have htag : x.data.tag = .ret := by
    rw [x3, Data.after]
    split
    · simp [hd]
    · exact hd
  obtain ⟨dn, acc, ks, above, g1, g2, g3, g4, g5, g6, g7, g8, g9⟩ := second_node ht hu hr hm hq x2
    (by
      rw [Data.follow, htag]
      split <;> simp_all)
  have h2 := C02_return_placement f9 f8 f10 g2 (g3.trans htag)
  rw [if_pos (g4.reached g5)] at h2
  obtain ⟨m, m', m1, m2, m3, m4⟩ := h2
  rw [g1] at m1
  obtain rfl := Option.some.inj m1
  refine ⟨x, _, m', x2, g1, g3.trans htag, m2, ?_⟩
  simp only [RTree.kids_mk] at m4
  have hh := g6.hooked (env := env2) (s := s2) .ret
  simp only [hookedAt, Targets.has] at hh
  rw [hh, g6.method, g6.tailIdents, g6.ignore, resultAt_of g6 g7] at m4
  have hwx := WF_sub (wfItem {} i') x2
  obtain ⟨dx, ms, kx⟩ := x
  simp only [RTree.data_mk] at htag
  simp only [RTree.WF, nodeOk, htag] at hwx
  rcases hwx.1 with hk | ⟨v, hk, hv⟩
  · left
    simp only [RTree.kids_mk, hk, rereadList] at g8 ⊢
    rcases m4 with m4 | ⟨k, k', m5, -⟩
    · exact ⟨trivial, m4.2⟩
    · rw [g8] at m5; simp at m5
  · right
    simp only [RTree.kids_mk, hk, rereadList, List.isEmpty_nil, if_true] at g8 ⊢
    rcases m4 with m4 | ⟨k, k', m5, m6, m7⟩
    · rw [m4.1] at g8; simp at g8
    · refine ⟨v, k', rfl, m6, m7, fun hvm hp => ?_⟩
      rw [g8] at m5
      have hch : j.chain (nodeAt ops n' q (.mk dx ms kx) ++ [0]) =
          some ((reread ops v.data.edge above v).data :: dn :: acc) := by
        exact upFrom_kid g2 g1 (by rw [g8]; rfl)
      have h3 := (C60_effect f9 f8 f10).2 _ _ _ hch
      have hre : reached env2 s2 ((reread ops v.data.edge above v).data :: dn :: acc) = true := by
        rw [reached_cons, reread_edge, hv]
        have hg3 : dn.tag = .ret := g3.trans htag
        simp [hg3, g4.reached g5]
      rw [if_pos hre] at h3
      obtain ⟨-, y', -, c2, c3, -⟩ := h3
      have hyk : y' = k' := by
        rw [sub_append m2] at c2
        obtain ⟨dm, mm, km⟩ := m'
        simp only [RTree.kids_mk] at m6
        subst m6
        simp only [RTree.sub, List.getElem?_cons_zero] at c2
        cases k'
        simpa [RTree.sub] using c2.symm
      subst hyk
      have htg := reread_tag hp v v.data.edge above (g9 hp) (by simp [layersOf_ne f4 hvm])
      apply callee_of_tag
      rw [c3, Data.after]
      have hnc : consumedAt env2 s2 (reread ops v.data.edge above v).data (dn :: acc) = false := by
        rcases htg with ⟨nn, htg⟩ | htg <;> simp [consumedAt, htg]
      rw [hnc]
      exact htg

/-- Nothing inert on the node, nor on the operands of consumed `?` under it. -/
inductive Spotless : RTree → Prop
  | mk (t : RTree) : (∀ a ∈ t.data.seen, a.isInert = false) → Consumed t →
      (∀ k, t.data.follow = .drop → t.kids = [k] → Spotless k) → Spotless t

theorem tidy_at {env : Env} {args : List Meta} {s : Settings} {i i' : Item}
    {uses : List Path} (hs : rootSettings env args = .ok s) (hb : s.bindings.keys.Nodup)
    (h : hooqImpls env args i = .ok (uses, i')) : ∀ (x : RTree) (p : List Nat) (d : Data) (up : List Data),
    i.chain p = some (d :: up) → reached env s (d :: up) = true → i'.tree.sub p = some x → Spotless x
  | .mk dx ms ks, p, d, up, hu, hr, hx => by
    obtain ⟨z, y, upz, z1, z2, z3, z4, z5, z6, z7, z8, z9, z10⟩ := first_way hs hb h (p := p) (r := [])
      (by rw [List.append_nil]; exact hu) hr
    rw [hx] at z4; obtain rfl := Option.some.inj z4
    refine .mk _ z7 z10 fun k hf hk => ?_
    simp only [RTree.kids_mk] at hk
    subst hk
    have h1 := (C60_effect hs hb h).2 p _ _ z2
    rw [if_pos z3] at h1
    obtain ⟨n, n', e1, e2, e3, e4⟩ := h1
    rw [z1] at e1; obtain rfl := Option.some.inj e1
    rw [hx] at e2; obtain rfl := Option.some.inj e2
    simp only [RTree.kids_mk, List.length_singleton] at e4
    obtain ⟨k0, hk0⟩ : ∃ k0, z.kids[0]? = some k0 := by
      rw [List.getElem?_eq_getElem (by omega)]; exact ⟨_, rfl⟩
    have hc := upFrom_kid z2 z1 hk0
    have hs' : i'.tree.sub (p ++ [0]) = some k := by
      rw [sub_append hx]; simp [RTree.sub]
    obtain ⟨q, hq⟩ := follow_drop hf
    simp only [RTree.data_mk] at hq
    have hzt : z.data.tag ≠ .mac := by
      intro hm
      simp only [RTree.data_mk] at z5
      rw [z5, Data.after] at hq
      split at hq
      · simp [hm] at hq
      · simp [hm] at hq
    have hkv : k0.data.edge.visit = true := by
      obtain ⟨q0, b0, hq0⟩ : ∃ q b, z.data.tag = .question q b := by
        simp only [RTree.data_mk] at z5
        rw [z5, Data.after] at hq
        split at hq
        · cases hzt : z.data.tag <;> simp [hzt] at hq ⊢
        · exact ⟨_, _, hq⟩
      have hwz := WF_sub (wfItem {} i) z1
      obtain ⟨dz, mz, kz⟩ := z
      simp only [RTree.data_mk] at hq0
      simp only [RTree.WF, nodeOk, hq0] at hwz
      obtain ⟨v, hv, hv2⟩ := hwz.1.1
      simp only [RTree.kids_mk, hv, List.getElem?_cons_zero, Option.some.injEq] at hk0
      rw [← hk0, hv2]
    refine tidy_at hs hb h k (p ++ [0]) _ _ hc ?_ hs'
    rw [reached_cons, z3, hkv]
    simp [hzt]

/-- The top of what is read. -/
theorem reread_top {ops : HookData → List Layer} (ho : ∀ hk, ops hk ≠ []) : ∀ (t : RTree) (ed : Edge)
    (above : List Layer), Spotless t → (ed = t.data.edge ∨ above ++ layersOf ops t.marks ≠ []) →
    (∀ a ∈ (reread ops ed above t).data.seen, a.isInert = false) ∧
    ((t.data.mode ≠ .untouched ∨ above ++ layersOf ops t.marks ≠ []) → (reread ops ed above t).data.mode ≠ .untouched)
  | .mk d ms ks, ed, above, ht, he => by
    obtain ⟨-, h1, h2, h3⟩ := ht
    simp only [RTree.data_mk, RTree.marks_mk] at h1 he ⊢
    cases hf : d.follow with
    | drop =>
      obtain ⟨q, hq⟩ := follow_drop hf
      obtain ⟨k, hk, hk1, hk2⟩ := h2 q hq
      simp only [RTree.kids_mk] at hk
      subst hk
      have hne : (above ++ layersOf ops ms) ++ layersOf ops k.marks ≠ [] := by simp [layersOf_ne ho hk2]
      have := reread_top ho k ed (above ++ layersOf ops ms) (h3 k hf rfl) (.inr hne)
      simp only [reread, hf, rereadHead]
      exact ⟨this.1, fun _ => this.2 (.inr hne)⟩
    | sink =>
      have hmode := follow_sink hf
      simp only [reread, hf]
      refine ⟨?_, fun _ => by simp [hmode]⟩
      intro a ha
      rw [RTree.data_mk, seen_handled (by exact hmode)] at ha
      exact h1 a (by rwa [seen_handled hmode])
    | wrap =>
      simp only [reread, hf]
      cases hl : above ++ layersOf ops ms with
      | nil =>
        simp only [wrap]
        rw [hl] at he
        refine ⟨under_clean (ls := []) h1 (fun _ h => h) (he.imp id id) (fun _ => rfl) (fun h => absurd rfl h), ?_⟩
        simp [Data.under]
      | cons l ls =>
        simp only [wrap, Layer.on]
        refine ⟨?_, fun _ => by simp [hnode]⟩
        intro a ha
        simp only [hnode, RTree.data_mk, Data.seen] at ha
        split at ha
        · rename_i hm; exact h1 a (by rwa [seen_handled hm])
        · simp at ha

/-- C67.  A tail expression inside the inner item, again decided with the settings of the
inner `#[hooq]`, the return type declared inside the inner item, and the expression as it
is after the first expansion. -/
theorem C67_tail {env env2 : Env} {s s2 : Settings} {i i' j j' : Item} {p q : List Nat} {n' : RTree}
    {ops : HookData → List Layer} (ht : Twice env env2 s s2 i i' j j' p n' ops)
    {d : Data} {up : List Data} (hu : i.chain (p ++ q) = some (d :: up)) (hr : reached env s (d :: up) = true)
    (hm : NoMacro i p q ∨ s2.hookInMacros = true) (hq : q ≠ []) {tk : TailKind} (hd : d.edge.tail = some tk)
    (hmode : d.mode ≠ .untouched) :
    ∃ x m m', i'.tree.sub (p ++ q) = some x ∧ j.tree.sub (relocateItem ops n' q) = some m ∧
      m.data.edge = d.edge ∧ j'.tree.sub (relocateItem ops n' q) = some m' ∧
      (if s2.targets.tail && (endsIn m'.bare.callee s2.tailIdents ||
          (tk == .fnTail && (outputAt ((d :: up).take q.length)).among s2.resultTypes &&
            !endsIn m'.bare.callee s2.ignoreIdents)) then
        ∃ hk src, m'.tailMarks = [(hk, src)] ∧ hk.kind = .tail ∧ hk.mode = s2.method.mode
      else m'.tailMarks = []) ∧
      (x.marks ≠ [] → (∀ hk, PlainHead (ops hk)) → m'.bare.callee = none) := by
  obtain ⟨⟨args, uses, f1, f2⟩, f3, f4, ⟨attrs, f5, f6⟩, ⟨args2, uses2, f9, f10⟩, f7, f8⟩ := ht
  obtain ⟨x, e, acc, g1, g2, g3, g4, g5, g6, g7, g8, g9⟩ := second_at f1 f7 f2 f4 f3 f5 f6 s2.hookInMacros
    (fun r z h1 h2 h3 h4 => by
      rcases hm with hm | hm
      · exact absurd h4 (hm r z h1 h2 h3)
      · exact hm) hu hr hq
  have he : e = d.edge := by
    rcases g8 with g8 | ⟨g8, -⟩
    · exact g8
    · rw [g8] at hd; cases hd
  subst he
  obtain ⟨t1, t2⟩ := reread_top f4 x d.edge (landingItem ops n' q) (tidy_at f1 f7 f2 x _ _ _ hu hr g1)
    (.inl (by rw [g2, after_edge]))
  have t2 := t2 (.inl (by rw [g2, after_mode]; exact hmode))
  have t3 := reread_edge (ops := ops) x d.edge (landingItem ops n' q)
  have t4 : (∀ hk, PlainHead (ops hk)) → x.marks ≠ [] → _ := fun hp hne =>
    reread_tag hp x d.edge (landingItem ops n' q) (plainHead_landingItem hp n' q) (by simp [layersOf_ne f4 hne])
  have hch : j.chain (relocateItem ops n' q) = some ((reread ops d.edge (landingItem ops n' q) x).data :: acc) := by
    have := g4 []
    rw [List.append_nil] at this
    rw [Item.chain, this]
    cases reread ops d.edge (landingItem ops n' q) x; rfl
  generalize reread ops d.edge (landingItem ops n' q) x = m at g3 t1 t2 t3 t4 hch
  have hclean : CleanUp (m.data :: acc) := by
    intro y hy
    rcases List.mem_cons.1 hy with rfl | hy
    · exact t1
    · exact g5.clean y hy
  have hre : reached env2 s2 (m.data :: acc) = true := g5.reached (by rw [t3]; exact g6)
  have h2 := C03_tail_placement f9 f8 f10 hch
  have h3 := (C60_effect f9 f8 f10).2 _ _ _ hch
  rw [if_pos hre] at h2 h3
  obtain ⟨m', m1, m2⟩ := h2
  obtain ⟨-, m'', -, c2, c3, -⟩ := h3
  rw [m1] at c2; obtain rfl := Option.some.inj c2
  refine ⟨x, m, m', g1, g3, t3, m1, ?_, fun hne hp => ?_⟩
  · rw [t3, hd] at m2
    have hh := hclean.hooked (env := env2) (s := s2) .tail
    simp only [hookedAt, Targets.has] at hh
    simp only [hh, hclean.method, hclean.tailIdents, hclean.ignore, resultAt_of hclean
      (by rw [innermostFn_cons, t3]; exact g7 : innermostFn (m.data :: acc) = innermostFn ((d :: up).take q.length)),
      ne_eq, t2, not_false_eq_true, true_and] at m2
    exact m2
  · have htg := t4 hp hne
    apply callee_of_tag
    rw [c3, Data.after]
    have hnc : consumedAt env2 s2 m.data acc = false := by
      rcases htg with ⟨nn, htg⟩ | htg <;> simp [consumedAt, htg]
    rw [hnc]
    exact htg

/-! ## Examples -/

section
open Ex
set_option maxRecDepth 10000

/-- `#[hooq::method(.a())] fn f() -> Result { #[hooq] fn g() -> Result { .. } }` with the body
`#[hooq::skip] x?; y?; return Err(e); let c = || { return Err(u); }; Err(t)` of `g`. -/
def Ex.outer : Item :=
  .fn [.list (hooqPath "method") [tkP '.', tkId "a", tkParen []]] { ident := "f", output := result, text := "" }
    [.item (.fn [.path (.ofIdents ["hooq"])] { ident := "g", output := result, text := "" }
      [.expr (quest [.path (hooqPath "skip")] (var "x" 2) 2) true,
       .expr (quest [] (var "y" 3) 3) true,
       .expr (.mk [] (sp 4 1) (.ret (some (call "Err" [var "e" 4] 4)))) true,
       .localInit [] "c" (.mk [] (sp 5 1) (.closure { output := .none, text := "" }
         (.mk [] (sp 5 9) (.block "" [.expr (.mk [] (sp 5 10) (.ret (some (call "Err" [var "u" 5] 5)))) true])))) none,
       .expr (call "Err" [var "t" 6] 6) false])]

/-- The hook that inserts `.a()`. -/
def Ex.hookA (k : Kind) (sp : Span) (n : Nat) : HookData where
  kind := k
  mode := .insert
  toks := [tkP '.', .ident "a" sp, .group .paren [] sp]
  exc := false
  shape := .other .whole
  span := sp
  count := n

/-- An expression with a hook. -/
def Ex.hookedA (k : Kind) (at_ : Span) (n : Nat) (e src : Expr) : Expr :=
  mkHooked (Ex.hookA k at_ n) e src

/-- The expansion of `f`. -/
def Ex.outerOut : Item :=
  .fn [] { ident := "f", output := result, text := "" }
    [.item (.fn [.path (.ofIdents ["hooq"])] { ident := "g", output := result, text := "" }
      [.expr (quest [] (var "x" 2) 2) true,
       .expr (quest [] (Ex.hookedA .question (sp 3 9) 1 (var "y" 3) (quest [] (var "y" 3) 3)) 3) true,
       .expr (.mk [] (sp 4 1) (.ret (some (Ex.hookedA .ret (sp 4 1) 1 (call "Err" [var "e" 4] 4)
         (.mk [] (sp 4 1) (.ret (some (call "Err" [var "e" 4] 4)))))))) true,
       .localInit [] "c" (.mk [] (sp 5 1) (.closure { output := .none, text := "" }
         (.mk [] (sp 5 9) (.block "" [.expr (.mk [] (sp 5 10)
           (.ret (some (Ex.hookedA .ret (sp 5 10) 2 (call "Err" [var "u" 5] 5)
             (.mk [] (sp 5 10) (.ret (some (call "Err" [var "u" 5] 5)))))))) true])))) none,
       .expr (Ex.hookedA .tail (sp 6 1) 1 (call "Err" [var "t" 6] 6) (call "Err" [var "t" 6] 6)) false])]

/-- `e.a()` -/
def Ex.dotA (e : Expr) : Expr := .mk [] (sp 9 9) (.methodCall e "a" [])

/-- What the expansion of `g` gets: `x?; y.a()?; return Err(e).a();
let c = || { return Err(u).a(); }; Err(t).a()`. -/
def Ex.innerIn : Item :=
  .fn [] { ident := "g", output := result, text := "" }
    [.expr (quest [] (var "x" 2) 2) true,
     .expr (quest [] (Ex.dotA (var "y" 3)) 3) true,
     .expr (.mk [] (sp 4 1) (.ret (some (Ex.dotA (call "Err" [var "e" 4] 4))))) true,
     .localInit [] "c" (.mk [] (sp 5 1) (.closure { output := .none, text := "" }
       (.mk [] (sp 5 9) (.block "" [.expr (.mk [] (sp 5 10) (.ret (some (Ex.dotA (call "Err" [var "u" 5] 5))))) true])))) none,
     .expr (Ex.dotA (call "Err" [var "t" 6] 6)) false]

/-- The expansion of `g`. -/
def Ex.innerOut : Item :=
  match hooqImpls env [] Ex.innerIn with
  | .ok r => r.2
  | .error _ => Ex.innerIn

/-- How the hooks are read: as a call of `.a()`. -/
def Ex.readA (_ : HookData) : List Layer := [⟨.method [], sp 9 9⟩]

theorem Ex.twice : ∃ n', Twice env env settings settings Ex.outer Ex.outerOut Ex.innerIn Ex.innerOut [0] n' Ex.readA := by
  refine ⟨_, ⟨⟨[], _, rfl, rfl⟩, rfl, fun _ => by simp [Ex.readA], ⟨[], by simp, rfl⟩, ⟨[], _, rfl, rfl⟩, by decide, by decide⟩⟩

theorem Ex.readA_plain (hk : HookData) : PlainHead (Ex.readA hk) := by
  intro l r h
  simp only [Ex.readA, List.cons.injEq] at h
  obtain ⟨rfl, -⟩ := h
  exact ⟨_, rfl⟩

/-- The hypotheses of the three theorems, at `x?`, `y?`, both `return`s and the tail. -/
example : (∃ d up, Ex.outer.chain ([0] ++ [0]) = some (d :: up) ∧ reached env settings (d :: up) = true ∧
      d.tag = .question (sp 2 9) false ∧ consumedAt env settings d up = false) ∧
    (∃ d up, Ex.outer.chain ([0] ++ [1]) = some (d :: up) ∧ reached env settings (d :: up) = true ∧
      d.tag = .question (sp 3 9) false ∧ consumedAt env settings d up = false) ∧
    (∃ d up, Ex.outer.chain ([0] ++ [2]) = some (d :: up) ∧ reached env settings (d :: up) = true ∧ d.tag = .ret) ∧
    (∃ d up, Ex.outer.chain ([0] ++ [3, 0, 0, 0]) = some (d :: up) ∧ reached env settings (d :: up) = true ∧
      d.tag = .ret ∧ outputAt ((d :: up).take 4) = .none) ∧
    (∃ d up, Ex.outer.chain ([0] ++ [4]) = some (d :: up) ∧ reached env settings (d :: up) = true ∧
      d.edge.tail = some .fnTail ∧ d.mode ≠ .untouched) ∧
    settings.hookInMacros = true :=
  ⟨⟨_, _, rfl, rfl, rfl, rfl⟩, ⟨_, _, rfl, rfl, rfl, rfl⟩, ⟨_, _, rfl, rfl, rfl⟩, ⟨_, _, rfl, rfl, rfl, rfl⟩,
    ⟨_, _, rfl, rfl, rfl, by decide⟩, rfl⟩

/-- C20 does not hold for every target.  The number of hooks of the first and of the second expansion on the operand of
`x?` (skipped in the source), on the operand of `y?`, on the value of `return Err(e)`, on the value of
`return Err(u)` in the closure without return type, and on the tail. -/
theorem C20_not_twice : (Ex.outerOut.tree.sub [0, 0, 0]).map (·.marks.length) = some 0 ∧
    (Ex.innerOut.tree.sub [0, 0]).map (·.marks.length) = some 1 ∧
    (Ex.outerOut.tree.sub [0, 1, 0]).map (·.marks.length) = some 1 ∧
    (Ex.innerOut.tree.sub [1, 0]).map (·.marks.length) = some 1 ∧
    (Ex.outerOut.tree.sub [0, 2, 0]).map (·.marks.length) = some 1 ∧
    (Ex.innerOut.tree.sub [2, 0]).map (·.marks.length) = some 1 ∧
    (Ex.outerOut.tree.sub [0, 3, 0, 0, 0, 0]).map (·.marks.length) = some 1 ∧
    (Ex.innerOut.tree.sub [3, 0, 0, 0, 0]).map (·.marks.length) = some 0 ∧
    (Ex.outerOut.tree.sub [0, 4]).map (·.marks.length) = some 1 ∧
    (Ex.innerOut.tree.sub [4]).map (·.marks.length) = some 1 :=
  ⟨by decide +kernel, by decide +kernel, by decide +kernel, by decide +kernel, by decide +kernel, by decide +kernel,
    by decide +kernel, by decide +kernel, by decide +kernel, by decide +kernel⟩

end

end Hooq
