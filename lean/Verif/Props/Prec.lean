import Verif.Proof.Prec
import Verif.Proof.Whole
import Verif.Model.Skel
import Verif.Props.Errors

/-!
# What the inserted method applies to (C50)

First the parser alone (`Reads`), then the classification `Rear` that the walker's model
uses, then the expansion.
-/

namespace Hooq

/-! ## The parser -/

/-- C50.  `e.m()` is a method call on all of `e` exactly if `e` ends at the strength of
method calls, that is, if it is not an operator, cast, prefix, `return`, ... expression. -/
theorem C50_whole_iff {ts : List XTok} {e : PE} (h : Reads ts e) (m : String) :
    Reads (ts ++ [.post m]) (.post e m) ↔ e.IsPost := by
  rw [reads_iff] at h
  obtain ⟨h1, rfl⟩ := h
  rw [reads_iff]
  exact ⟨fun ⟨g, _⟩ => g.2, fun g => ⟨⟨h1, g⟩, rfl⟩⟩

/-- C50.  Otherwise the method lands on the last operand, unless that is a cast, an open
range or a keyword. -/
theorem C50_lands {ts : List XTok} {e : PE} (h : Reads ts e) (hs : ¬ e.Stuck) (m : String) :
    Reads (ts ++ [.post m]) (e.onLast m) := by
  rw [reads_iff] at h
  obtain ⟨h1, rfl⟩ := h
  rw [reads_iff]
  exact ⟨onLast_wf m h1 hs, (onLast_print m).symm⟩

theorem onLast_atLeast_inv {m : String} {e : PE} (hs : ¬ e.Stuck) {k : Nat} (h : (e.onLast m).AtLeast k) :
    e.AtLeast k := by
  cases e <;> first | exact h | trivial | exact absurd trivial hs

/-- A tree whose text ends in a method call has the method on the last operand of a
tree. -/
theorem ends_post {x : PE} {ts : List XTok} {m : String} (hw : x.WF) (h : x.print = ts ++ [.post m]) :
    ∃ e : PE, e.WF ∧ ¬ e.Stuck ∧ e.print = ts ∧ x = e.onLast m := by
  induction x generalizing ts with
  | atom s => have := congrArg List.getLast? h; simp [PE.print] at this
  | paren e =>
    rw [PE.print, ← List.cons_append] at h
    obtain ⟨-, h2⟩ := List.append_inj' h rfl
    simp at h2
  | post e m' =>
    simp only [PE.print] at h
    obtain ⟨h1, h2⟩ := List.append_inj' h rfl
    have := hw.2
    obtain rfl : m' = m := by simpa using h2
    refine ⟨e, hw.1, ?_, h1, ?_⟩
    · cases e <;> simp_all [PE.IsPost, PE.Stuck]
    · cases e <;> simp_all [PE.IsPost, PE.onLast]
  | bin o l r _ ih =>
    simp only [PE.print] at h
    obtain ⟨hl, hr, h3, h4⟩ := hw
    rcases List.eq_nil_or_concat r.print with hn | ⟨r0, t, hn⟩
    · have := not_ends_print r []
      simp [hn, ends] at this
    · rw [hn, List.concat_eq_append, ← List.cons_append, ← List.append_assoc] at h
      obtain ⟨h1, h2⟩ := List.append_inj' h rfl
      obtain rfl : t = .post m := by simpa using h2
      obtain ⟨e, g1, g2, g3, rfl⟩ := ih hr (by rw [hn, List.concat_eq_append])
      exact ⟨.bin o l e, ⟨hl, g1, h3, onLast_atLeast_inv g2 h4⟩, g2, by simp [PE.print, g3, ← h1], rfl⟩
  | half o l => have := congrArg List.getLast? h; simp [PE.print] at this
  | suf s l => have := congrArg List.getLast? h; simp [PE.print] at this
  | pre p r ih =>
    simp only [PE.print] at h
    rcases List.eq_nil_or_concat r.print with hn | ⟨r0, t, hn⟩
    · have := not_ends_print r []
      simp [hn, ends] at this
    · rw [hn, List.concat_eq_append, ← List.cons_append] at h
      obtain ⟨h1, h2⟩ := List.append_inj' h rfl
      obtain rfl : t = .post m := by simpa using h2
      obtain ⟨e, g1, g2, g3, rfl⟩ := ih hw.1 (by rw [hn, List.concat_eq_append])
      exact ⟨.pre p e, ⟨g1, onLast_atLeast_inv g2 hw.2⟩, g2, by simp [PE.print, g3, ← h1], rfl⟩
  | bare p => have := congrArg List.getLast? h; simp [PE.print] at this

/-- C50.  All readings of a text with a method call at its end. -/
theorem C50_reading (ts : List XTok) (m : String) (x : PE) :
    Reads (ts ++ [.post m]) x ↔ ∃ e, Reads ts e ∧ ¬ e.Stuck ∧ x = e.onLast m := by
  constructor
  · intro h
    rw [reads_iff] at h
    obtain ⟨e, g1, g2, g3, g4⟩ := ends_post h.1 h.2.symm
    exact ⟨e, (reads_iff _ _).2 ⟨g1, g3.symm⟩, g2, g4⟩
  · rintro ⟨e, h, hs, rfl⟩
    exact C50_lands h hs m

/-- C50.  After a cast, an open range or a keyword without value a method call is a
syntax error. -/
theorem C50_rejected {ts : List XTok} {e : PE} (h : Reads ts e) (hs : e.Stuck) (m : String) :
    ¬ ∃ x, Reads (ts ++ [.post m]) x := by
  rintro ⟨x, hx⟩
  obtain ⟨e', h1, h2, -⟩ := (C50_reading ts m x).1 hx
  rw [h.unique h1] at hs
  exact h2 hs

theorem wf_parts {e x : PE} (hw : e.WF) (hx : x ∈ e.parts) : x.WF := by
  induction e with
  | atom s => simp only [PE.parts, List.mem_singleton] at hx; rw [hx]; exact hw
  | bare p => simp only [PE.parts, List.mem_singleton] at hx; rw [hx]; exact hw
  | paren e ih =>
    simp only [PE.parts, List.mem_cons] at hx
    rcases hx with rfl | hx
    · exact hw
    · exact ih hw hx
  | post e m ih =>
    simp only [PE.parts, List.mem_cons] at hx
    rcases hx with rfl | hx
    · exact hw
    · exact ih hw.1 hx
  | bin o l r ihl ihr =>
    simp only [PE.parts, List.mem_cons, List.mem_append] at hx
    rcases hx with rfl | hx | hx
    · exact hw
    · exact ihl hw.1 hx
    · exact ihr hw.2.1 hx
  | half o l ih =>
    simp only [PE.parts, List.mem_cons] at hx
    rcases hx with rfl | hx
    · exact hw
    · exact ih hw.2.1 hx
  | suf s l ih =>
    simp only [PE.parts, List.mem_cons] at hx
    rcases hx with rfl | hx
    · exact hw
    · exact ih hw.1 hx
  | pre p e ih =>
    simp only [PE.parts, List.mem_cons] at hx
    rcases hx with rfl | hx
    · exact hw
    · exact ih hw.1 hx

/-- C50.  In everything a parser can read, the operand of `?` (as of any postfix
operator) takes a method call as a whole. -/
theorem C50_question_operand {ts : List XTok} {e x : PE} {m : String} (h : Reads ts e)
    (hx : .post x m ∈ e.parts) : x.IsPost :=
  (wf_parts ((reads_iff _ _).1 h).1 hx).2

/-! ## The classification -/

theorem skel_rear : ∀ e : Expr, (e.skel.IsPost ↔ e.rear = .whole) ∧ (e.skel.Stuck ↔ e.rear = .stuck)
  | .mk at_ sp k => by
    have inner : ∀ r : Rear, (r.inner = .whole ↔ False) ∧ (r.inner = .stuck ↔ r = .stuck) := by
      intro r; cases r <;> simp [Rear.inner]
    cases k with
    | range s op t =>
      cases s with
      | none =>
        cases t with
        | none => simp [Expr.skel, Expr.rear, PE.IsPost, PE.Stuck]
        | some r => have := skel_rear r; simp [Expr.skel, Expr.rear, PE.IsPost, PE.Stuck, this, inner]
      | some l =>
        cases t with
        | none => simp [Expr.skel, Expr.rear, PE.IsPost, PE.Stuck]
        | some r => have := skel_rear r; simp [Expr.skel, Expr.rear, PE.IsPost, PE.Stuck, this, inner]
    | ret v | break_ _ v | yield_ v =>
      cases v with
      | none => simp [Expr.skel, Expr.rear, PE.IsPost, PE.Stuck]
      | some r => have := skel_rear r; simp [Expr.skel, Expr.rear, PE.IsPost, PE.Stuck, this, inner]
    | closure sig r =>
      have := skel_rear r
      simp only [Expr.skel, Expr.rear]
      split <;> simp [PE.IsPost, PE.Stuck, this, inner]
    | hooked hk arg src =>
      have := skel_rear arg
      simp only [Expr.skel, Expr.rear]
      split <;> simp_all [PE.IsPost, PE.Stuck]
    | assign l r => have := skel_rear r; simp [Expr.skel, Expr.rear, PE.IsPost, PE.Stuck, this, inner]
    | binary l _ r => have := skel_rear r; simp [Expr.skel, Expr.rear, PE.IsPost, PE.Stuck, this, inner]
    | unary _ r => have := skel_rear r; simp [Expr.skel, Expr.rear, PE.IsPost, PE.Stuck, this, inner]
    | reference r => have := skel_rear r; simp [Expr.skel, Expr.rear, PE.IsPost, PE.Stuck, this, inner]
    | rawAddr r => have := skel_rear r; simp [Expr.skel, Expr.rear, PE.IsPost, PE.Stuck, this, inner]
    | let_ _ r => have := skel_rear r; simp [Expr.skel, Expr.rear, PE.IsPost, PE.Stuck, this, inner]
    | _ => simp [Expr.skel, Expr.rear, PE.IsPost, PE.Stuck]

/-- C50.  The classification of ends that `render` uses is what the parser does: a
method written after `e` applies to all of `e`, to its last operand, or is a syntax
error. -/
theorem C50_classification (e : Expr) (hw : e.skel.WF) (m : String) :
    match e.rear with
    | .whole => Reads (e.skel.print ++ [.post m]) (.post e.skel m)
    | .part => Reads (e.skel.print ++ [.post m]) (e.skel.onLast m) ∧
        ¬ Reads (e.skel.print ++ [.post m]) (.post e.skel m)
    | .stuck => ¬ ∃ x, Reads (e.skel.print ++ [.post m]) x := by
  obtain ⟨h1, h2⟩ := skel_rear e
  have hr := reads_self hw
  cases hc : e.rear with
  | whole => exact (C50_whole_iff hr m).2 (h1.2 hc)
  | part =>
    refine ⟨C50_lands hr (by rw [h2, hc]; simp) m, ?_⟩
    rw [C50_whole_iff hr m, h1, hc]; simp
  | stuck => exact C50_rejected hr (h2.2 hc) m

/-! ## The expansion -/

/-- C50.  A visited expression ends, apart from hooks on itself, as it did in the source:
the method inserted there applies to the same part as if it were written in the source. -/
theorem C50_ends_kept {env : Env} (hy : Tidy env) {args : List Meta} {s : Settings} {i i' : Item}
    {uses : List Path} (hs : rootSettings env args = .ok s)
    (h : hooqImpls env args i = .ok (uses, i')) (hp : Parsed i.tree) {p : List Nat} {up : List Data}
    (hu : i.chain p = some up) (hr : reached env s up = true) :
    ∃ n n', i.tree.sub p = some n ∧ i'.tree.sub p = some n' ∧
      (n.rear ≠ .stuck → n'.bare.rear = n.rear) := by
  obtain ⟨c', hw⟩ := expansion hs h
  obtain ⟨n, n0, n', upn, ctx', c1, c2, g1, g2, g3, g4, g5, g6, g7, g8⟩ :=
    gwalk_local (agrees_new env s) hw hu hr
  refine ⟨n, n', g1, g2, fun hn => ?_⟩
  subst g3
  have hv : n.data.edge.visit = true := by
    rw [reached_cons] at hr; simp only [Bool.and_eq_true] at hr; exact hr.1.1
  have hpn : Parsed n := fun q m a b hq => hp (p ++ q) m a b (by rw [sub_append g1]; exact hq)
  have := (gwalk_ends hy n (WF_sub (wfItem {} i) g1) hpn hv g5 hn).1
  rw [← this]
  simp [RTree.bare, g6, g7]

theorem upFrom_add {t n k : RTree} {acc up : List Data} {p : List Nat} {i : Nat}
    (hu : t.upFrom acc p = some up) (hs : t.sub p = some n) (hk : n.kids[i]? = some k) :
    t.upFrom acc (p ++ [i]) = some (k.data :: up) := by
  induction p generalizing t acc with
  | nil =>
    obtain ⟨d, ms, ks⟩ := t
    simp only [RTree.sub, Option.some.injEq] at hs
    subst hs
    obtain ⟨dk, mk, kk⟩ := k
    simp only [RTree.kids_mk] at hk
    simp only [RTree.upFrom, Option.some.injEq] at hu
    simp [RTree.upFrom, hk, hu]
  | cons j p ih =>
    obtain ⟨d, ms, ks⟩ := t
    simp only [List.cons_append, RTree.upFrom, RTree.sub] at hu hs ⊢
    split at hu
    · rename_i k' hk'
      simp only [hk'] at hs
      exact ih hu hs
    · simp at hu

/-- C50.  The hook on the operand of a `?` applies to the whole operand. -/
theorem C50_question_whole {env : Env} (hy : Tidy env) {args : List Meta} {s : Settings} {i i' : Item}
    {uses : List Path} (hs : rootSettings env args = .ok s)
    (h : hooqImpls env args i = .ok (uses, i')) (hp : Parsed i.tree) {p : List Nat} {d : Data}
    {up : List Data} {q : Span} {b : Bool} (hu : i.chain p = some (d :: up))
    (hq : d.tag = .question q b) (hr : reached env s (d :: up) = true) :
    ∃ k', i'.tree.sub (p ++ [0]) = some k' ∧ k'.bare.rear = .whole := by
  obtain ⟨n, upn, g1, g2⟩ := upFrom_sub hu
  obtain ⟨rfl, rfl⟩ := List.cons.inj g2
  have hwf := WF_sub (wfItem {} i) g1
  obtain ⟨d, ms, kids⟩ := n
  simp only [RTree.data_mk] at hq
  obtain ⟨k, rfl, he⟩ : ∃ k, kids = [k] ∧ k.data.edge = {} := by
    have := hwf.1; simp only [nodeOk, hq] at this; exact this.1
  have hk := (hp p _ q b g1 hq).2 k (by simp)
  have hu0 : i.chain (p ++ [0]) = some (k.data :: d :: up) := by
    exact upFrom_add hu g1 (by simp)
  obtain ⟨n, n', e1, e2, e3⟩ := C50_ends_kept hy hs h hp hu0 (by
    rw [RTree.data_mk] at hr
    rw [reached_cons]
    simp [he, hr, hq])
  rw [sub_append g1] at e1
  simp only [RTree.sub, List.getElem?_cons_zero, Option.some.injEq] at e1
  subst e1
  exact ⟨n', e2, by rw [e3 (by rw [hk]; simp), hk]⟩

/-- C50, partial.  The hook on a trailing expression or on a return value applies to the
whole of it if it takes a method call as a whole, and only to its last operand
otherwise.  Missing: the second case violates the claim, see `C50_operator_tail` and
`C50_operator_return`; for expressions that take no method call, the expansion fails. -/
theorem C50_value_partial {env : Env} (hy : Tidy env) {args : List Meta} {s : Settings} {i i' : Item}
    {uses : List Path} (hs : rootSettings env args = .ok s)
    (h : hooqImpls env args i = .ok (uses, i')) (hp : Parsed i.tree) {p : List Nat} {up : List Data}
    (hu : i.chain p = some up) (hr : reached env s up = true) {n n' : RTree}
    (hn : i.tree.sub p = some n) (hn' : i'.tree.sub p = some n') :
    (n.rear = .whole → n'.bare.rear = .whole) ∧ (n.rear = .part → n'.bare.rear = .part) := by
  obtain ⟨m, m', h1, h2, h3⟩ := C50_ends_kept hy hs h hp hu hr
  rw [hn] at h1
  rw [hn'] at h2
  obtain rfl := Option.some.inj h1
  obtain rfl := Option.some.inj h2
  exact ⟨fun e => by rw [h3 (by rw [e]; simp), e], fun e => by rw [h3 (by rw [e]; simp), e]⟩

/-! ## Strengths -/

theorem level_row {op : String} {r : Nat} (h : InRow op r) : 
    opLevel op = (if r ≤ 6 then 12 - r else if r ≤ 8 then 11 - r else 1) ∧ r < 10 := by
  obtain ⟨ops, h1, h2⟩ := h
  have hr : r < 10 := (List.getElem?_eq_some_iff.1 h1).1
  refine ⟨?_, hr⟩
  match r, hr with
  | 0, _ | 1, _ | 2, _ | 3, _ | 4, _ | 5, _ | 6, _ | 7, _ | 8, _ | 9, _ =>
    obtain rfl := Option.some.inj h1
    simp only [List.mem_cons, List.not_mem_nil, or_false] at h2
    repeat' (rcases h2 with h2 | h2)
    all_goals rfl

theorem canonical_iff (e : Expr) : Canonical e ↔ e.skel.WF := by
  rw [Canonical, reads_iff]; exact ⟨fun h => h.1, fun h => ⟨h, rfl⟩⟩

theorem level_lt {o o' : String} {r r' : Nat} (h : InRow o r) (h' : InRow o' r') :
    (opLevel o' < opLevel o ↔ r < r') ∧ (opLevel o' = opLevel o ↔ r = r') ∧ (opLevel o = 1 ↔ r = 9) ∧ (3 ≤ opLevel o ↔ r ≠ 9) ∧ (5 ≤ opLevel o ↔ r < 7) ∧
    1 ≤ opLevel o ∧ opLevel o ≤ 12 := by
  obtain ⟨h1, h2⟩ := level_row h
  obtain ⟨h3, h4⟩ := level_row h'
  rw [h1, h3]
  clear h1 h3 h h'
  refine ⟨?_, ?_, ?_, ?_, ?_, ?_, ?_⟩ <;> (repeat' split) <;> omega

/-- An operand takes part in any operation. -/
theorem operand_facts {e : Expr} (h : Operand e) : e.skel.WF ∧ (∀ q, ¬ e.skel.Takes q) ∧ ∀ m, e.skel.AtLeast m := by
  obtain ⟨h1, h2⟩ := h
  rw [canonical_iff] at h1
  refine ⟨h1, fun q => ?_, fun m => ?_⟩ <;> cases hs : e.skel <;> simp_all [PE.IsPost, PE.Takes, PE.AtLeast]

/-- C50.  The parser groups binary operators as Rust does: the stronger one first, equally strong
ones from the left, except assignments, which group from the right. -/
theorem C50_grouping {a b c : Expr} (ha : Operand a) (hb : Operand b) (hc : Operand c) {o o' : String} {r r' : Nat}
    (h : InRow o r) (h' : InRow o' r') (at_ at' : List Attr) (sp sp' : Span) :
    (Canonical (.mk at_ sp (.binary (.mk at' sp' (.binary a o b)) o' c)) ↔ r < r' ∨ (r = r' ∧ r ≠ 9)) ∧
    (Canonical (.mk at_ sp (.binary a o (.mk at' sp' (.binary b o' c)))) ↔ r' < r ∨ (r = r' ∧ r = 9)) := by
  obtain ⟨a1, a2, a3⟩ := operand_facts ha
  obtain ⟨b1, b2, b3⟩ := operand_facts hb
  obtain ⟨c1, c2, c3⟩ := operand_facts hc
  obtain ⟨l1, l2, l3, l4, l5, l6, l7⟩ := level_lt h h'
  obtain ⟨k1, k2, k3, k4, k5, k6, k7⟩ := level_lt h' h
  simp only [canonical_iff, Expr.skel, PE.WF, PE.Takes, PE.AtLeast, infixOf, a1, a2, b1, b2, b3, c1, c3]
  constructor
  · split <;> simp <;> omega
  · split <;> simp <;> omega

/-- C50.  Casts and prefix operators are stronger than binary operators, and prefix operators
stronger than casts; ranges are weaker than all binary operators but assignments; `return` takes
everything after it, and the `let` of a condition everything down to the comparisons. -/
theorem C50_strengths {a b : Expr} (ha : Operand a) (hb : Operand b) {o : String} {r : Nat} (h : InRow o r)
    (u ty : String) (at_ at' : List Attr) (sp sp' : Span) :
    -- `a o b as T`
    (Canonical (.mk at_ sp (.binary a o (.mk at' sp' (.cast b ty)))) ∧
      ¬ Canonical (.mk at_ sp (.cast (.mk at' sp' (.binary a o b)) ty))) ∧
    -- `u a o b`
    (Canonical (.mk at_ sp (.binary (.mk at' sp' (.unary u a)) o b)) ∧
      ¬ Canonical (.mk at_ sp (.unary u (.mk at' sp' (.binary a o b))))) ∧
    -- `& a o b`
    (Canonical (.mk at_ sp (.binary (.mk at' sp' (.reference a)) o b)) ∧
      ¬ Canonical (.mk at_ sp (.reference (.mk at' sp' (.binary a o b))))) ∧
    -- `u a as T`
    (Canonical (.mk at_ sp (.cast (.mk at' sp' (.unary u a)) ty)) ∧
      ¬ Canonical (.mk at_ sp (.unary u (.mk at' sp' (.cast a ty))))) ∧
    -- `a .. b o c`
    (∀ c, Operand c → ∀ op,
      (Canonical (.mk at_ sp (.range (some a) op (some (.mk at' sp' (.binary b o c))))) ↔ r ≠ 9) ∧
      (Canonical (.mk at_ sp (.binary (.mk at' sp' (.range (some a) op (some b))) o c)) ↔ r = 9)) ∧
    -- `return a o b`
    (Canonical (.mk at_ sp (.ret (some (.mk at' sp' (.binary a o b))))) ∧
      ¬ Canonical (.mk at_ sp (.binary (.mk at' sp' (.ret (some a))) o b))) ∧
    -- `let p = a o b`
    (Canonical (.mk at_ sp (.let_ u (.mk at' sp' (.binary a o b)))) ↔ r < 7) := by
  obtain ⟨a1, a2, a3⟩ := operand_facts ha
  obtain ⟨b1, b2, b3⟩ := operand_facts hb
  obtain ⟨l1, l2, l3, l4, l5, l6, l7⟩ := level_lt h h
  refine ⟨?_, ?_, ?_, ?_, fun c hc op => ?_, ?_, ?_⟩
  case refine_7 =>
    simp only [canonical_iff, Expr.skel, PE.WF, PE.Takes, PE.AtLeast, infixOf, a1, a2, a3, b1, b3]
    simp; omega
  case refine_5 =>
    obtain ⟨c1, c2, c3⟩ := operand_facts hc
    simp only [canonical_iff, Expr.skel, PE.WF, PE.Takes, PE.AtLeast, infixOf, a1, a2, b1, b2, b3, c1, c3]
    constructor <;> simp <;> omega
  all_goals
    simp only [canonical_iff, Expr.skel, PE.WF, PE.Takes, PE.AtLeast, infixOf, a1, a2, a3, b1, b2, b3]
    constructor <;> simp <;> (try split) <;> omega

theorem print_ends : ∀ x : PE, x.print ≠ []
  | .atom _ | .paren _ | .post _ _ | .bin _ _ _ | .half _ _ | .suf _ _ | .pre _ _ | .bare _ => by simp [PE.print]

/-- An operator at the end is one that may stand there. -/
theorem last_opt : ∀ {x : PE}, x.WF → (∀ o, x.print.getLast? = some (.bin o) → o.opt = true) ∧
    ∀ p, x.print.getLast? = some (.pre p) → p.opt = true
  | .atom _, _ => by simp [PE.print]
  | .paren _, _ => by simp [PE.print, List.getLast?_cons]
  | .post _ _, _ => by simp [PE.print]
  | .suf _ _, _ => by simp [PE.print]
  | .half o l, h => by
    refine ⟨fun o' h' => ?_, fun p h' => ?_⟩
    · simp [PE.print] at h'; subst h'; exact h.1
    · simp [PE.print] at h'
  | .bare p, h => by
    refine ⟨fun o' h' => ?_, fun p h' => ?_⟩
    · simp [PE.print] at h'
    · simp [PE.print] at h'; subst h'; exact h
  | .bin o l r, h => by
    have := last_opt h.2.1
    have ht := List.getLast?_eq_some_getLast (print_ends r)
    simp only [PE.print, List.getLast?_append, List.getLast?_cons, ht] at this ⊢
    simpa using this
  | .pre p e, h => by
    have := last_opt h.1
    have ht := List.getLast?_eq_some_getLast (print_ends e)
    simp only [PE.print, List.getLast?_cons, ht] at this ⊢
    simpa using this

/-- What is before the operand `e` in the text of the expression with it cannot stand alone. -/
def NeedsOperand (whole e : Expr) : Prop :=
  ∀ ts, ts ++ e.skel.print = whole.skel.print → ¬ ∃ x, Reads ts x

/-- C50.  Operands that may be missing are those of `return`, `break` and `yield`, and those of `..`, but not of `..=`;
what is left then is the text in front of the operand.  All other operators need their operands. -/
theorem C50_missing {a : Expr} (ha : Operand a) (e : Expr) (at_ : List Attr) (sp : Span) :
    Canonical (.mk at_ sp (.ret none)) ∧ (∀ l, Canonical (.mk at_ sp (.break_ l none))) ∧
    Canonical (.mk at_ sp (.yield_ none)) ∧
    (∀ op, Canonical (.mk at_ sp (.range none op none)) ↔ op = "..") ∧
    (∀ op, Canonical (.mk at_ sp (.range (some a) op none)) ↔ op = "..") ∧
    (Expr.mk at_ sp (.ret (some e))).skel.print = (Expr.mk at_ sp (.ret none)).skel.print ++ e.skel.print ∧
    (∀ l, (Expr.mk at_ sp (.break_ l (some e))).skel.print = (Expr.mk at_ sp (.break_ l none)).skel.print ++ e.skel.print) ∧
    (Expr.mk at_ sp (.yield_ (some e))).skel.print = (Expr.mk at_ sp (.yield_ none)).skel.print ++ e.skel.print ∧
    (∀ op, (Expr.mk at_ sp (.range none op (some e))).skel.print =
      (Expr.mk at_ sp (.range none op none)).skel.print ++ e.skel.print) ∧
    (∀ op, (Expr.mk at_ sp (.range (some a) op (some e))).skel.print =
      (Expr.mk at_ sp (.range (some a) op none)).skel.print ++ e.skel.print) ∧
    (Expr.mk at_ sp (.assign a e)).skel.print = (Expr.mk at_ sp (.binary a "=" e)).skel.print ∧
    (∀ op, NeedsOperand (.mk at_ sp (.binary a op e)) e) ∧ (∀ op, NeedsOperand (.mk at_ sp (.unary op e)) e) ∧
    NeedsOperand (.mk at_ sp (.reference e)) e ∧ NeedsOperand (.mk at_ sp (.rawAddr e)) e ∧
    (∀ pat, NeedsOperand (.mk at_ sp (.let_ pat e)) e) ∧
    ∀ sig, sig.output = .none → NeedsOperand (.mk at_ sp (.closure sig e)) e := by
  obtain ⟨a1, a2, a3⟩ := operand_facts ha
  have pre : ∀ {w : Expr} {p : Prefix}, w.skel.print = .pre p :: e.skel.print → p.opt = false → NeedsOperand w e := by
    rintro w p hw hp ts hts ⟨x, hx⟩
    obtain ⟨h1, rfl⟩ := (reads_iff _ _).1 hx
    rw [hw, ← List.singleton_append] at hts
    have := (last_opt h1).2 p (by rw [List.append_cancel_right hts]; rfl)
    simp [hp] at this
  have bin : ∀ {w : Expr} {o : Infix}, w.skel.print = a.skel.print ++ .bin o :: e.skel.print → o.opt = false →
      NeedsOperand w e := by
    rintro w o hw ho ts hts ⟨x, hx⟩
    obtain ⟨h1, rfl⟩ := (reads_iff _ _).1 hx
    rw [hw, ← List.singleton_append, ← List.append_assoc] at hts
    have := (last_opt h1).1 o (by rw [List.append_cancel_right hts]; simp)
    simp [ho] at this
  refine ⟨?_, fun l => ?_, ?_, fun op => ?_, fun op => ?_, rfl, fun _ => rfl, rfl, fun _ => rfl, fun op => ?_, rfl,
    fun op => bin rfl rfl, fun op => pre rfl rfl, pre rfl rfl, pre rfl rfl, fun pat => pre rfl rfl, fun sig hs => ?_⟩
  · simp [canonical_iff, Expr.skel, PE.WF]
  · simp [canonical_iff, Expr.skel, PE.WF]
  · simp [canonical_iff, Expr.skel, PE.WF]
  · simp [canonical_iff, Expr.skel, PE.WF]
  · simp [canonical_iff, Expr.skel, PE.WF, a1, a2]
  · simp [Expr.skel, PE.print]
  · exact pre (p := { text := "||", lvl := 0, opt := false }) (by simp [Expr.skel, hs, PE.print]) rfl

section
open Ex
set_option maxRecDepth 10000

theorem Ex.tidy : Tidy env where
  insert := fun ts re h => by
    simp only [env, Option.some.injEq] at h
    exact h.symm
  replace := fun r ts re h => by simp [env] at h

/-- Checks `Parsed`. -/
def parsedNode (n : RTree) : Bool :=
  match n.data.tag with
  | .question _ _ => n.rear == .whole && n.kids.all fun k => k.rear == .whole
  | _ => true

theorem parsed_of_check {t : RTree} (h : t.allNodes parsedNode = true) : Parsed t := by
  intro p n q b hp hq
  have := allNodes_sub h hp
  simp only [parsedNode, hq, Bool.and_eq_true, beq_iff_eq, List.all_eq_true] at this
  exact this

/-- `x..` can be read, `x..=` cannot. -/
example : Canonical (.mk [] (sp 2 1) (.range (some (var "x" 2)) ".." none)) ∧
    ¬ Canonical (.mk [] (sp 2 1) (.range (some (var "x" 2)) "..=" none)) := by
  obtain ⟨-, -, -, -, h, -⟩ := C50_missing (a := var "x" 2) ⟨by simp [canonical_iff, Expr.skel, var, PE.WF], trivial⟩
    (var "y" 2) [] (sp 2 1)
  simp [h]

/-- The sample meets the hypotheses of the theorems: its first `?`, inside
`g(h?)?`. -/
example : ∃ k', out.tree.sub ([0, 0] ++ [0]) = some k' ∧ k'.bare.rear = .whole :=
  C50_question_whole tidy root_ok out_ok (parsed_of_check rfl) (q := sp 3 9) (b := false)
    (rfl : item.chain [0, 0] = some (_ :: _)) rfl rfl

/-- `fn f() -> Result { x & y }` -/
def Ex.sumItem : Item :=
  .fn [] { ident := "f", output := result, text := "fn f () -> Result" }
    [.expr (.mk [] (sp 2 1) (.binary (var "x" 2) "&" (var "y" 2))) false]

/-- `fn f() -> Result { return x & y; }` -/
def Ex.sumReturn : Item :=
  .fn [] { ident := "f", output := result, text := "fn f () -> Result" }
    [.expr (.mk [] (sp 2 1) (.ret (some (.mk [] (sp 2 8) (.binary (var "x" 2) "&" (var "y" 2)))))) true]

/-- The claim fails for a trailing `x & y`: it is hooked, and the method is called on
`y` only. -/
theorem C50_operator_tail : ∃ i' n', hooqImpls env [] Ex.sumItem = .ok ([], i') ∧
    i'.tree.sub [0] = some n' ∧ n'.tailMarks.length = 1 ∧ n'.bare.rear = .part :=
  ⟨_, _, rfl, rfl, rfl, rfl⟩

/-- The same for `return x & y`. -/
theorem C50_operator_return : ∃ i' n', hooqImpls env [] Ex.sumReturn = .ok ([], i') ∧
    i'.tree.sub [0, 0] = some n' ∧ n'.marks.length = 1 ∧ n'.bare.rear = .part :=
  ⟨_, _, rfl, rfl, rfl, rfl⟩

/-- In terms of the parser: `x & y.m()` is `x & (y.m())`. -/
example : Reads ((Expr.mk [] (sp 2 1) (.binary (var "x" 2) "&" (var "y" 2))).skel.print ++ [.post "m"])
    (.bin (infixOf "&") (.atom "atom") (.post (.atom "atom") "m")) :=
  (C50_classification (.mk [] (sp 2 1) (.binary (var "x" 2) "&" (var "y" 2)))
    (by simp [Expr.skel, var, PE.WF, PE.Takes, PE.AtLeast]) "m").1

/-- The hypotheses of the theorems on strengths: `f(x)` is an operand. -/
example : Operand (call "f" [var "x" 1] 1) ∧ InRow "*" 0 ∧ InRow "<<=" 9 :=
  ⟨⟨(canonical_iff _).2 ⟨trivial, trivial⟩, trivial⟩, ⟨_, rfl, by simp⟩, ⟨_, rfl, by simp⟩⟩

/-- `-x.m()` is `-(x.m())`, while `(-x).m()` and `f(-x).m()` are calls on the whole. -/
example : ¬ (PE.pre ⟨"-", 14, false⟩ (.atom "x")).IsPost ∧ (PE.paren (.pre ⟨"-", 14, false⟩ (.atom "x"))).IsPost :=
  ⟨id, trivial⟩

/-- `a + b * c?`, as the parser reads it. -/
example : Reads [.atom "a", .bin (infixOf "+"), .atom "b", .bin (infixOf "*"), .atom "c", .post "?"]
    (.bin (infixOf "+") (.atom "a") (.bin (infixOf "*") (.atom "b") (.post (.atom "c") "?"))) :=
  ⟨20, by decide⟩

end

end Hooq
