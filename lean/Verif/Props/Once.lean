import Verif.Props.Trace

/-!
# One report per function (C100)
-/

namespace Hooq

/-- No target of the item is an expression with an operator in front or between parts, like `!x`,
`a + b` or `return x`: neither at the end of a body, nor before `?`, nor behind `return`. -/
def Item.ClosedTargets (i : Item) : Prop :=
  ∀ p d up, i.chain p = some (d :: up) → d.rear ≠ .closed →
    d.edge.tail = none ∧ ∀ e ∈ up.head?, (∀ q b, e.tag ≠ .question q b) ∧ e.tag ≠ .ret

/-- A node of the output with hooks has only one, and this is no operator expression. -/
theorem marks_single {env : Env} {args : List Meta} {s : Settings} {i i' : Item} {uses : List Path}
    (hs : rootSettings env args = .ok s) (hb : s.bindings.keys.Nodup) (hsrc : i.IsSource) (hct : i.ClosedTargets)
    (h : hooqImpls env args i = .ok (uses, i')) {p : List Nat} {n : RTree} (hn : i'.tree.sub p = some n) (hne : n.marks ≠ []) :
    (∃ m, n.marks = [m]) ∧ n.data.rear = .closed := by
  obtain ⟨m, ms, hms⟩ := List.exists_cons_of_ne_nil hne
  have hm : m ∈ n.marks := by simp [hms]
  obtain ⟨d, up, hu, hr⟩ := mark_reached hs hb hsrc h hn hm
  obtain ⟨n', g1, g2, g3⟩ := C19_at_most_one hs hb h hu hr
  obtain rfl : n = n' := Option.some.inj (hn.symm.trans g1)
  refine ⟨⟨m, ?_⟩, ?_⟩
  · rw [hms] at g2 ⊢
    simpa using g2
  · have he := (C60_effect hs hb h).2 p d up hu
    rw [if_pos hr] at he
    obtain ⟨-, n2, -, g4, g5, -⟩ := he
    obtain rfl : n = n2 := Option.some.inj (hn.symm.trans g4)
    have hrear : n.data.rear = d.rear := by
      rw [g5, Data.after]
      split <;> rfl
    rw [hrear]
    refine Decidable.byContradiction fun hd => ?_
    obtain ⟨k1, k2⟩ := hct p d up hu hd
    have hf := g3 m hm
    unfold HookFact at hf
    split at hf
    · rename_i h1 _
      obtain ⟨rfl, -⟩ := List.cons.inj h1
      exact hf.1 k1
    · rename_i h1 _
      obtain ⟨rfl, rfl⟩ := List.cons.inj h1
      obtain ⟨q, b, c, hq, -⟩ := hf
      exact (k2 _ rfl).1 q b hq
    · rename_i h1 _
      obtain ⟨rfl, rfl⟩ := List.cons.inj h1
      obtain ⟨c, hq, -⟩ := hf
      exact (k2 _ rfl).2 hq
    · exact hf

theorem FromItem.Passed.single {Ty : Nat → Type} {c : FromItem} {S : Setting Ty} {helpers : List TT} {n : RTree} {e0 e : Dyn Ty}
    {evs : List (Report Ty)} (h : c.Passed S helpers n e0 e evs) (w : Watched c.env c.settings c.args c.item c.out)
    (hsrc : c.item.IsSource) (hct : c.item.ClosedTargets) :
    ∃ q m sc e1, c.out.tree.sub q = some n ∧ n.marks = [m] ∧
      Does (S.world m.1) helpers (Locals.ofScope sc) m.1.toks (.err e0) (.err e1) evs ∧ (e = e1 ∨ S.conv e1 e) := by
  obtain ⟨q, hks, e1, hq, hne, hhk, hpass, he⟩ := h
  obtain ⟨uses, hx⟩ := w.expand
  obtain ⟨⟨m, hm⟩, -⟩ := marks_single w.root w.nodup hsrc hct hx hq hne
  obtain rfl : hks = [] := by
    refine List.eq_nil_iff_forall_not_mem.2 fun x hx' => ?_
    obtain ⟨p, n2, k1, k2, m2, k3, -⟩ := hhk x hx'
    exact k2 (marks_single w.root w.nodup hsrc hct hx k1 (List.ne_nil_of_mem k3)).2
  rw [hm] at hpass
  cases hpass with
  | cons g1 g2 =>
    cases g2
    exact ⟨q, m, _, e1, hq, hm, by rw [List.append_nil]; exact g1, he⟩

/-- C100 for arbitrary flavors and methods, under the conditions of `C97_any_flavor`. -/
theorem C100_any_flavor {Ty : Nat → Type} {P : Program Ty} {origin : P.Fn → FromItem}
    (hw : ∀ f, (origin f).Observed P f) (hsrc : ∀ f, (origin f).item.IsSource) (hct : ∀ f, (origin f).item.ClosedTargets)
    {f : P.Fn} {e : Dyn Ty} {evs : List (Report Ty)} (h : P.Returns f (.res (.err e)) evs) :
    ∃ pre t, evs = pre ++ t ∧ P.Trace (fun f n e0 e evs => ∃ q e1, (origin f).out.tree.sub q = some n ∧ n.marks.length = 1 ∧
      (origin f).Ran (P.setting f) (P.helpers f) q e0 e1 evs ∧ (e = e1 ∨ (P.setting f).conv e1 e)) f e t := by
  obtain ⟨pre, t, h1, h2⟩ := FromItem.Observed.passed hw h
  refine ⟨pre, t, h1, h2.mono fun f n e0 e evs hp => ?_⟩
  obtain ⟨q, m, sc, e1, g1, g2, g3, g4⟩ := hp.single (hw f).watched (hsrc f) (hct f)
  exact ⟨q, e1, g1, by simp [g2], ⟨n, m, sc, g1, by simp [g2], g3⟩, g4⟩

/-- One hook on the node shows the error, and nothing else does. -/
def FromItem.Once {Ty : Nat → Type} (c : FromItem) (flavor : String) (S : Setting Ty) (n : RTree) (e0 e : Dyn Ty)
    (evs : List (Report Ty)) : Prop :=
  ∃ q e1, c.out.tree.sub q = some n ∧ c.Step flavor S q e0 e1 evs ∧ (e = e1 ∨ S.conv e1 e)

/-- C100.  If no target is an operator expression or a `return`, then the trace of an error
(C97) has for each function that the error passed the report of exactly one hook, the
one on the call that returned the error. -/
theorem C100_once {Ty : Nat → Type} {P : Program Ty} {origin : P.Fn → FromItem} {flavor : P.Fn → String}
    (hw : ∀ f, (origin f).Fits (flavor f) P f) (hct : ∀ f, (origin f).item.ClosedTargets)
    (hc : ∀ f, flavor f ∈ ["default", "log", "tracing", "anyhow", "eyre", "color_eyre"])
    {f : P.Fn} {e : Dyn Ty} {evs : List (Report Ty)} (h : P.Returns f (.res (.err e)) evs) :
    ∃ pre t, evs = pre ++ t ∧ P.Trace (fun f => (origin f).Once (flavor f) (P.setting f)) f e t := by
  obtain ⟨pre, t, h1, h2⟩ := FromItem.Observed.passed (fun f => (hw f).observed (hc f)) h
  refine ⟨pre, t, h1, h2.mono fun f n e0 e evs hp => ?_⟩
  have hno : flavor f ≠ "hook" := by
    intro hd
    have hcf := hc f
    rw [hd] at hcf
    simp at hcf
  obtain ⟨q, m, sc, e1, g1, g2, g3, g4⟩ := hp.single ((hw f).observed (hc f)).watched (hw f).source (hct f)
  exact ⟨q, e1, g1, (hw f).step (k := 0) hno g1 (by simp [g2]) g3, g4⟩

/-- C100 under the default flavor: one line for each function. -/
theorem C100_printed {Ty : Nat → Type} {P : Program Ty} {origin : P.Fn → FromItem}
    (hw : ∀ f, (origin f).Fits "default" P f) (hct : ∀ f, (origin f).item.ClosedTargets)
    {f : P.Fn} {e : Dyn Ty} {evs : List (Report Ty)} (h : P.Returns f (.res (.err e)) evs) :
    ∃ pre t, evs = pre ++ t ∧ P.Trace (fun f n e0 e lines =>
      ∃ q line, (origin f).out.tree.sub q = some n ∧ lines = [line] ∧ (origin f).Line (P.setting f) e0 q line ∧
        (e = e0 ∨ (P.setting f).conv e0 e)) f e t := by
  obtain ⟨pre, t, h1, h2⟩ := C100_once (flavor := fun _ => "default") hw hct (by simp) h
  refine ⟨pre, t, h1, h2.mono ?_⟩
  rintro f n e0 e evs ⟨q, e1, hq, ⟨d, up, n', m, sp, sc, g1, g2, g3, g4, rfl, rfl, -⟩, he⟩
  refine ⟨q, _, hq, ?_, ⟨d, up, n', m, sp, g1, g2, g3, g4, rfl⟩, by simpa using he⟩
  simp [World.reports, Where.text, String.append_assoc]

/-- C100 under `anyhow` and `eyre`: one text in front of the error for each function. -/
theorem C100_context {Ty : Nat → Type} {P : Program Ty} {origin : P.Fn → FromItem} {flavor : P.Fn → String}
    (hw : ∀ f, (origin f).Fits (flavor f) P f) (hct : ∀ f, (origin f).item.ClosedTargets)
    (hc : ∀ f, flavor f ∈ ["anyhow", "eyre", "color_eyre"]) {wrap : P.Fn → String → Dyn Ty → Dyn Ty}
    (hwrap : ∀ f hk, ((P.setting f).world hk).wrap (if flavor f = "anyhow" then "with_context" else "wrap_err_with") = wrap f)
    {f : P.Fn} {e : Dyn Ty} {evs : List (Report Ty)} (h : P.Returns f (.res (.err e)) evs) :
    ∃ pre t, evs = pre ++ t ∧ P.Trace (fun f n e0 e lines => lines = [] ∧
      ∃ q text, (origin f).out.tree.sub q = some n ∧ (origin f).Context q text ∧
        (e = wrap f text e0 ∨ (P.setting f).conv (wrap f text e0) e)) f e t := by
  obtain ⟨pre, t, h1, h2⟩ := C100_once hw hct (fun f => by
    have := hc f
    simp only [List.mem_cons, List.not_mem_nil, or_false] at this ⊢
    tauto) h
  refine ⟨pre, t, h1, h2.mono ?_⟩
  rintro f n e0 e evs ⟨q, e1, hq, ⟨d, up, n', m, sp, sc, g1, g2, g3, g4, rfl, rfl, -⟩, he⟩
  have hw := hwrap f m.1
  have hf := hc f
  simp only [List.mem_cons, List.not_mem_nil, or_false] at hf
  rcases hf with hf | hf | hf <;> rw [hf] at hw he ⊢ <;>
    simp only [World.reports, String.reduceEq, if_false, if_true] at hw he ⊢ <;>
    exact ⟨trivial, q, _, hq, ⟨d, up, n', m, sp, g1, g2, g3, g4, rfl⟩,
      by simpa [Where.text, String.append_assoc, ← congrFun (congrFun hw _) _] using he⟩

/-! ## Programs -/

section
open Ex

theorem Ex.levelled_closed : levelled.ClosedTargets := fun p d up hu hd => by
  obtain ⟨n, upn, h1, h2⟩ := upFrom_sub hu
  obtain ⟨rfl, -⟩ := List.cons.inj h2
  exact absurd (of_decide_eq_true (allNodes_sub (t := levelled.tree) (f := fun n => decide (n.data.rear = .closed)) rfl h1)) hd

/-- A program that meets the hypotheses: one line is printed. -/
example : ∃ uses i' s, hooqImpls env [] levelled = .ok (uses, i') ∧ levelled.ClosedTargets ∧
    (∃ ev, (Ex.one i').Returns () (.res (.err ⟨0, (5 : Nat)⟩)) [ev]) ∧
    ∀ f, FromItem.Fits ⟨env, [], s, levelled, i', uses, presetDocs[0], [],
      { ident := "f", output := result, text := "fn f () -> Result" }, fun _ => "  11> w?\n    |", fun _ => "w?"⟩
      "default" (Ex.one i') f := by
  obtain ⟨uses, i', s, h1, h2, h3⟩ := Ex.one_default
  exact ⟨uses, i', s, h1, levelled_closed, h2, h3⟩

/-- `fn f() -> Result { return w }`. -/
def Ex.returned : Item :=
  .fn [] { ident := "f", output := result, text := "fn f () -> Result" }
    [.expr (.mk [] (sp 11 1) (.ret (some (var "w" 11)))) false]

/-- What `ClosedTargets` excludes: with `return` at the end, the default flavor prints two lines
for one error. -/
theorem C100_return_twice : ∃ i' l1 l2, hooqImpls env [] returned = .ok ([], i') ∧
    Ex.setting.Call [tkId "helpers"] i'.tree (.res (.err ⟨0, (5 : Nat)⟩)) [l1, l2] := by
  obtain ⟨i', k, n, m1, m2, h1, h2, h3, h4, h5, h6, h7, h8, h9, h10, h11, h12, h13⟩ : ∃ i' k n m1 m2,
      hooqImpls env [] returned = .ok ([], i') ∧ k ∈ i'.tree.kids ∧ k.kids[0]? = some n ∧ k.kids.length = 1 ∧
      k.data.tag = .ret ∧ k.data.rear ≠ .closed ∧ k.marks = [m2] ∧ n.marks = [m1] ∧ n.data.rear = .closed ∧
      n.data.tag ≠ .ret ∧ endsIn n.bare.callee ["Ok"] = false ∧ i'.tree.sub [0] = some k ∧ i'.tree.sub [0, 0] = some n := by
    refine ⟨_, _, _, _, _, rfl, List.mem_cons_self, rfl, rfl, rfl, ?_, rfl, rfl, rfl, ?_, rfl, rfl, rfl⟩
      <;> intro h <;> cases h
  have hh : ∀ t ∈ [tkId "helpers"], t.InPath := by simp [TT.InPath, tkId]
  have hsrc : returned.IsSource := fun p n hs => by
    have := allNodes_sub (t := returned.tree) (f := fun n => !n.built) rfl hs
    simpa using this
  have hno : NoMethodSet env returned := fun p n hs a ha => by
    have := allNodes_sub (t := returned.tree) (f := fun n => n.data.seen.all fun a => (methodOf env a).isNone) rfl hs
    simp only [List.all_eq_true, Option.isNone_iff_eq_none] at this
    exact this a ha
  obtain ⟨c1, -, d1⟩ := C95_looks (x := "default") default_builtin hh rfl (by simp) hno hsrc h1 (hk := m1.1) ⟨[0, 0], n, h13, m1, by simp [h8], rfl⟩
  obtain ⟨c2, -, d2⟩ := C95_looks (x := "default") default_builtin hh rfl (by simp) hno hsrc h1 (hk := m2.1) ⟨[0], k, h12, m2, by simp [h7], rfl⟩
  obtain ⟨r1, evs1, g1, rfl, g2⟩ := d1 Ex.world (fun _ => none) _ _ rfl rfl (.err ⟨0, (5 : Nat)⟩)
  obtain ⟨r2, evs2, k1, rfl, k2⟩ := d2 Ex.world (fun _ => none) _ _ rfl rfl (.err ⟨0, (5 : Nat)⟩)
  obtain ⟨l1, rfl⟩ : ∃ ev, evs1 = [ev] := List.length_eq_one_iff.1 ((g2 _).2 rfl)
  obtain ⟨l2, rfl⟩ : ∃ ev, evs2 = [ev] := List.length_eq_one_iff.1 ((k2 _).2 rfl)
  refine ⟨i', l1, l2, h1, ?_⟩
  have e0 : Ex.setting.Runs [tkId "helpers"] n [m2.1] (.val (.res (.err ⟨0, (5 : Nat)⟩))) (([] ++ []) ++ ([l1] ++ ([l2] ++ []))) := by
    refine .closed h9 (.gives h10 .nil ⟨rfl, rfl, h9, h11⟩) ?_
    rw [h8]
    exact .cons (.res (fun _ => none) c1 ((g1 _ _).2 ⟨rfl, rfl⟩)) (.cons (.res (fun _ => none) c2 ((k1 _ _).2 ⟨rfl, rfl⟩)) .nil)
  have e1 : Ex.setting.Runs [tkId "helpers"] k [] (.leave (.res (.err ⟨0, (5 : Nat)⟩))) ([] ++ (([] ++ []) ++ ([l1] ++ ([l2] ++ [])))) := by
    refine .open_ h6 (.ret h5 .nil h3 ?_)
    have : handDown k (k.marks.map Prod.fst ++ []) 0 = [m2.1] := by simp [handDown, h4, h7]
    rw [this]
    exact e0
  have := Setting.Call.leave (f := i'.tree) (.nil (S := Ex.setting)) h2 e1
  simpa using this

end

end Hooq
