import Verif.Spec.Run
import Verif.Props.Observe

/-!
# Every error that leaves a function has passed a hook (C96)
-/

namespace Hooq

/-- The attribute has no say in which positions are hooked. -/
structure KeepsTargets (env : Env) (a : Attr) : Prop where
  targets : targetsOf env a = none
  tailIdents : tailIdentsOf env a = none
  ignore : ignoreOf env a = .keep
  results : resultTypesOf env a = none
  macros : macrosOf env a = none
  skip : a.isSkip = false
  skipAll : a.isSkipAll = false

/-- The attribute sets nothing but bindings. -/
structure OnlyBinds (env : Env) (a : Attr) : Prop extends KeepsTargets env a where
  method : methodOf env a = none

/-- All attributes of the item do. -/
def Item.OnlyBinds (env : Env) (i : Item) : Prop :=
  ∀ p n, i.tree.sub p = some n → ∀ a ∈ n.data.seen, Hooq.OnlyBinds env a

/-- No attribute of the item has a say in which positions are hooked. -/
def Item.KeepsTargets (env : Env) (i : Item) : Prop :=
  ∀ p n, i.tree.sub p = some n → ∀ a ∈ n.data.seen, Hooq.KeepsTargets env a

/-- `?`, `return` and the ends of bodies are not on the left side of an assignment. -/
def Item.NoneLeft (i : Item) : Prop :=
  ∀ p d up, i.chain p = some (d :: up) →
    (∃ q b, d.tag = .question q b) ∨ d.tag = .ret ∨ d.edge.tail = some .fnTail → ∀ e ∈ d :: up, e.edge.visit = true

/-- Errors come from nodes behind which a hook applies to them, that is, from no operator
expression, and not from calls of `Ok`. -/
def Setting.Errs {Ty : Nat → Type} (S : Setting Ty) : Prop :=
  ∀ n e evs, S.gives n (.res (.err e)) evs → n.data.rear = .closed ∧ endsIn n.bare.callee ["Ok"] = false

/-- The hook keeps an `Ok` and gives an error for an error. -/
def HookData.Keeps {Ty : Nat → Type} (S : Setting Ty) (helpers : List TT) (hk : HookData) : Prop :=
  hk.mode = .insert ∧ ∀ sc r r' evs, Does (S.world hk) helpers (Locals.ofScope sc) hk.toks r r' evs →
    (∃ v, r = .ok v ∧ r' = .ok v) ∨ ∃ e e', r = .err e ∧ r' = .err e'

/-- The hook gives an `Ok` back and reports nothing of it, and gives an error for an error. -/
def HookData.Silent {Ty : Nat → Type} (S : Setting Ty) (helpers : List TT) (hk : HookData) : Prop :=
  hk.mode = .insert ∧ ∀ sc r r' evs, Does (S.world hk) helpers (Locals.ofScope sc) hk.toks r r' evs →
    (∃ v, r = .ok v ∧ r' = .ok v ∧ evs = []) ∨ ∃ e e', r = .err e ∧ r' = .err e'

theorem HookData.Silent.keeps {Ty : Nat → Type} {S : Setting Ty} {helpers : List TT} {hk : HookData} (h : hk.Silent S helpers) :
    hk.Keeps S helpers := by
  refine ⟨h.1, fun sc r r' evs hd => ?_⟩
  rcases h.2 sc r r' evs hd with ⟨v, h1, h2, -⟩ | h
  · exact .inl ⟨v, h1, h2⟩
  · exact .inr h

/-- An error passes hooks, from the inside to the outside, with all they report. -/
inductive Setting.Passes {Ty : Nat → Type} (S : Setting Ty) (helpers : List TT) :
    List HookData → Dyn Ty → Dyn Ty → List (Report Ty) → Prop
  | nil {e} : S.Passes helpers [] e e []
  | cons {hk hks sc e0 e1 e2 ev evs} : Does (S.world hk) helpers (Locals.ofScope sc) hk.toks (.err e0) (.err e1) ev →
      S.Passes helpers hks e1 e2 evs → S.Passes helpers (hk :: hks) e0 e2 (ev ++ evs)

/-- The hook is behind an operator expression, so that it applies to the last part of this. -/
def Item.Handed (i : Item) (hk : HookData) : Prop :=
  ∃ p n, i.tree.sub p = some n ∧ n.data.rear ≠ .closed ∧ ∃ m ∈ n.marks, m.1 = hk

theorem Item.Handed.hooked {i : Item} {hk : HookData} (h : i.Handed hk) : i.Hooked hk := by
  obtain ⟨p, n, h1, -, h2⟩ := h
  exact ⟨p, n, h1, h2⟩

/-- The last thing that happened is that a node gave an error and the hooks behind the node
got it, and then perhaps some that were handed down to it; there are some on the node, and `e`
is what they made of it or what `?` made of that. -/
def Seen {Ty : Nat → Type} (S : Setting Ty) (helpers : List TT) (i : Item) (e : Dyn Ty) (evs : List (Report Ty)) : Prop :=
  ∃ pre ev0 ev1 q n hks e0 e1, evs = pre ++ (ev0 ++ ev1) ∧ i.tree.sub q = some n ∧ S.gives n (.res (.err e0)) ev0 ∧
    n.marks ≠ [] ∧ (∀ hk ∈ hks, i.Handed hk) ∧ S.Passes helpers (n.marks.map Prod.fst ++ hks) e0 e1 ev1 ∧
    (e = e1 ∨ S.conv e1 e)

theorem Seen.after {Ty : Nat → Type} {S : Setting Ty} {helpers : List TT} {i : Item} {e : Dyn Ty}
    {evs : List (Report Ty)} (h : Seen S helpers i e evs) (e1 : List (Report Ty)) : Seen S helpers i e (e1 ++ evs) := by
  obtain ⟨pre, ev0, ev1, q, n, hks, a, b, rfl, h⟩ := h
  exact ⟨e1 ++ pre, ev0, ev1, q, n, hks, a, b, (List.append_assoc ..).symm, h⟩

theorem Setting.Passes.last {Ty : Nat → Type} {S : Setting Ty} {helpers : List TT} {hks : List HookData}
    {e0 e : Dyn Ty} {evs : List (Report Ty)} (h : S.Passes helpers hks e0 e evs) : hks ≠ [] →
    ∃ pre ev k sc a, k ∈ hks ∧ evs = pre ++ ev ∧ Does (S.world k) helpers (Locals.ofScope sc) k.toks (.err a) (.err e) ev := by
  induction h with
  | nil => exact fun h => absurd rfl h
  | @cons hk hks sc e0 e1 e2 ev evs h1 h2 ih =>
    intro _
    by_cases hn : hks = []
    · subst hn
      cases h2
      exact ⟨[], ev, hk, sc, e0, List.mem_cons_self, by simp, h1⟩
    · obtain ⟨pre, ev', k, sc', a, g1, rfl, g2⟩ := ih hn
      exact ⟨ev ++ pre, ev', k, sc', a, List.mem_cons_of_mem _ g1, by simp, g2⟩

/-! ## Hooks -/

theorem hooks_err {Ty : Nat → Type} {S : Setting Ty} {helpers : List TT} {hks : List HookData} {o o' : Stop Ty}
    {evs : List (Report Ty)} (h : S.Hooks helpers hks o o' evs) (hk : ∀ k ∈ hks, k.Keeps S helpers) :
    ∀ e, o' = .val (.res (.err e)) → ∃ e0, o = .val (.res (.err e0)) ∧ S.Passes helpers hks e0 e evs := by
  induction h with
  | nil => rintro e rfl; exact ⟨e, rfl, .nil⟩
  | leave => rintro e h; cases h
  | jump => rintro e h; cases h
  | @cons k hks v v' o e1 e2 h1 h2 ih =>
    rintro e rfl
    obtain ⟨e0, h3, h4⟩ := ih (fun x hx => hk x (List.mem_cons_of_mem _ hx)) e rfl
    obtain rfl := Stop.val.inj h3
    obtain ⟨hm, hd⟩ := hk k List.mem_cons_self
    cases h1 with
    | unknown hu => exact absurd hm hu
    | @res r _ _ sc _ h1 =>
      rcases hd _ _ _ _ h1 with ⟨w, -, h5⟩ | ⟨a, b, rfl, h5⟩
      · cases h5
      · obtain rfl := Res.err.inj h5
        exact ⟨a, rfl, .cons h1 h4⟩

theorem inside_err {Ty : Nat → Type} {S : Setting Ty} {helpers : List TT} {n : RTree} {hks : List HookData} {e : Dyn Ty}
    {evs : List (Report Ty)} (h : S.Inside helpers n hks (.val (.res (.err e))) evs) :
    ∃ pre ev, evs = pre ++ ev ∧ S.gives n (.res (.err e)) ev := by
  cases h with
  | gives _ _ h => exact ⟨_, _, rfl, h⟩

theorem runs_err {Ty : Nat → Type} {S : Setting Ty} {helpers : List TT} (hS : S.Errs) {n : RTree} {hks : List HookData}
    {e : Dyn Ty} {evs : List (Report Ty)} (h : S.Runs helpers n hks (.val (.res (.err e))) evs)
    (hm : ∀ m ∈ n.marks, m.1.Keeps S helpers) (hk : ∀ k ∈ hks, k.Keeps S helpers) :
    endsIn n.bare.callee ["Ok"] = false ∧
      ∃ pre ev0 ev1 e0, evs = pre ++ (ev0 ++ ev1) ∧ S.gives n (.res (.err e0)) ev0 ∧
        S.Passes helpers (n.marks.map Prod.fst ++ hks) e0 e ev1 := by
  have hall : ∀ k ∈ n.marks.map Prod.fst ++ hks, k.Keeps S helpers := by
    intro k h
    rcases List.mem_append.1 h with h | h
    · obtain ⟨m, h1, rfl⟩ := List.mem_map.1 h
      exact hm m h1
    · exact hk k h
  cases h with
  | open_ h1 h2 =>
    obtain ⟨_, _, -, h3⟩ := inside_err h2
    exact absurd (hS _ _ _ h3).1 h1
  | closed h1 h2 h3 =>
    obtain ⟨e0, rfl, h4⟩ := hooks_err h3 hall e rfl
    obtain ⟨pre, ev, rfl, h5⟩ := inside_err h2
    exact ⟨(hS _ _ _ h5).2, pre, ev, _, e0, List.append_assoc .., h5, h4⟩

theorem hooks_leave {Ty : Nat → Type} {S : Setting Ty} {helpers : List TT} {hks : List HookData} {o o' : Stop Ty}
    {evs : List (Report Ty)} (h : S.Hooks helpers hks o o' evs) {v : Val Ty} (ho : o' = .leave v) :
    o = .leave v ∧ evs = [] := by
  induction h with
  | nil => exact ⟨ho, rfl⟩
  | leave => exact ⟨ho, rfl⟩
  | jump => cases ho
  | cons h1 h2 ih => cases (ih ho).1

/-! ## Settings -/

section
variable {env : Env} {s : Settings} {up : List Data} (h : ∀ d ∈ up, ∀ a ∈ d.seen, KeepsTargets env a)
include h

theorem targetsAt_quiet : targetsAt env s up = s.targets := by
  rw [targetsAt, lastSet_none, Option.getD_none]
  intro a ha
  obtain ⟨d, hd, ha⟩ := mem_attrsOver ha
  exact (h d hd a ha).targets

theorem tailIdentsAt_quiet : tailIdentsAt env s up = s.tailIdents := by
  rw [tailIdentsAt, lastSet_none, Option.getD_none]
  intro a ha
  obtain ⟨d, hd, ha⟩ := mem_attrsOver ha
  exact (h d hd a ha).tailIdents

theorem resultTypesAt_quiet : resultTypesAt env s up = s.resultTypes := by
  rw [resultTypesAt, lastSet_none, Option.getD_none]
  intro a ha
  obtain ⟨d, hd, ha⟩ := mem_attrsOver ha
  exact (h d hd a ha).results

theorem macrosAt_quiet : macrosAt env s up = s.hookInMacros := by
  rw [macrosAt, lastSet_none, Option.getD_none]
  intro a ha
  obtain ⟨d, hd, ha⟩ := mem_attrsOver ha
  exact (h d hd a ha).macros

theorem ignoreAt_quiet : ignoreAt env s up = s.ignoreIdents := by
  have : (up.findSome? fun d => nodeIgnore env d.seen) = none := by
    rw [List.findSome?_eq_none_iff]
    exact fun d hd => nodeIgnore_keep fun a ha => (h d hd a ha).ignore
  rw [ignoreAt, this, Option.getD_none]

theorem skippedAt_quiet : skippedAt up = false := by
  suffices ∀ left, skippedUp left up = false from this false
  induction up with
  | nil => intro _; rfl
  | cons d up ih =>
    intro left
    have h1 : d.seen.any Meta.isSkipAll = false := by
      rw [List.any_eq_false]; intro a ha; simp [(h d List.mem_cons_self a ha).skipAll]
    have h2 : d.seen.any Meta.isSkip = false := by
      rw [List.any_eq_false]; intro a ha; simp [(h d List.mem_cons_self a ha).skip]
    simp only [skippedUp, h1, h2, Bool.false_eq_true, if_false]
    exact ih (fun e he => h e (List.mem_cons_of_mem _ he)) _

theorem reached_quiet (hm : s.hookInMacros = true) (hv : ∀ d ∈ up, d.edge.visit = true) : reached env s up = true := by
  induction up with
  | nil => rfl
  | cons d up ih =>
    have h' : ∀ d ∈ up, ∀ a ∈ d.seen, KeepsTargets env a := fun e he => h e (List.mem_cons_of_mem _ he)
    have h1 := ih h' fun e he => hv e (List.mem_cons_of_mem _ he)
    have h2 := hv d List.mem_cons_self
    cases up with
    | nil => simp [reached, h2]
    | cons m up => rw [reached]; simp [h1, h2, macrosAt_quiet h', hm]

end

theorem Item.KeepsTargets.up {env : Env} {i : Item} (h : i.KeepsTargets env) {p : List Nat} {up : List Data}
    (hu : i.chain p = some up) : ∀ e ∈ up, ∀ a ∈ e.seen, Hooq.KeepsTargets env a := by
  intro d hd a ha
  rcases chain_mem hu hd with h' | ⟨q, n, h1, rfl⟩
  · simp at h'
  · exact h q n h1 a ha

/-! ## Positions of the output -/

/-- What is needed of an expansion. -/
structure Watched (env : Env) (s : Settings) (args : List Meta) (i i' : Item) : Prop where
  root : rootSettings env args = .ok s
  nodup : s.bindings.keys.Nodup
  expand : ∃ uses, hooqImpls env args i = .ok (uses, i')
  targets : s.targets = ⟨true, true, true⟩
  ignore : ∀ x ∈ s.ignoreIdents, x = "Ok"
  results : "Result" ∈ s.resultTypes
  macros : s.hookInMacros = true
  binds : i.KeepsTargets env
  left : i.NoneLeft

theorem endsIn_ignored {l : List String} (hl : ∀ x ∈ l, x = "Ok") {p : Option Path} (h : endsIn p ["Ok"] = false) :
    endsIn p l = false := by
  unfold endsIn at h ⊢
  split
  · split
    · rename_i g hg
      simp only [hg, List.contains_eq_mem, List.mem_singleton, decide_eq_false_iff_not] at h ⊢
      exact fun hm => h (hl _ hm)
    · rfl
  · rfl

theorem RetType.EndsIn.of_result {r : RetType} {l : List String} (h : r.EndsIn ["Result"]) (hl : "Result" ∈ l) : r.EndsIn l := by
  obtain ⟨p, g, h1, h2, h3⟩ := h
  rw [List.mem_singleton] at h3
  exact ⟨p, g, h1, h2, h3 ▸ hl⟩

section
variable {env : Env} {s : Settings} {args : List Meta} {i i' : Item} (w : Watched env s args i i')
include w

theorem Watched.data {p : List Nat} {n : RTree} {d : Data} {up : List Data} (hn : i'.tree.sub p = some n)
    (hu : i.chain p = some (d :: up)) :
    n.data.edge = d.edge ∧ n.data.mode = d.mode ∧ (n.data.tag = .ret → d.tag = .ret) ∧
      ∀ q b, n.data.tag = .question q b → ∃ b', d.tag = .question q b' := by
  obtain ⟨uses, h⟩ := w.expand
  have := (C60_effect w.root w.nodup h).2 p d up hu
  split at this
  · obtain ⟨-, n2, -, g2, g3, -⟩ := this
    rw [hn] at g2
    obtain rfl := Option.some.inj g2
    rw [g3, Data.after]
    split
    · rename_i hc
      rw [consumedAt] at hc
      cases ht : d.tag with
      | question q b => simp
      | _ => simp [ht] at hc
    · exact ⟨rfl, rfl, id, fun q b h => ⟨b, h⟩⟩
  · obtain ⟨n0, upn, h1, h2⟩ := upFrom_sub hu
    rw [hn, h1] at this
    obtain rfl := Option.some.inj this
    obtain ⟨rfl, rfl⟩ := List.cons.inj h2
    exact ⟨rfl, rfl, id, fun q b h => ⟨b, h⟩⟩

theorem Watched.kid {p : List Nat} {n : RTree} {d : Data} {up : List Data} (hn : i'.tree.sub p = some n)
    (hu : i.chain p = some (d :: up)) {j : Nat} {k : RTree} (hk : n.kids[j]? = some k) :
    i'.tree.sub (p ++ [j]) = some k ∧ ∃ dk, i.chain (p ++ [j]) = some (dk :: d :: up) ∧ dk.edge = k.data.edge := by
  obtain ⟨uses, h⟩ := w.expand
  have h1 : i'.tree.sub (p ++ [j]) = some k := by
    rw [sub_append hn]
    obtain ⟨dn, ms, ks⟩ := n
    obtain ⟨a, b, c⟩ := k
    simp only [RTree.kids] at hk
    simp [RTree.sub, hk]
  obtain ⟨dk, upk, hk'⟩ := chain_of_output w.root w.nodup h _ _ h1
  obtain ⟨n0, upn, g1, g2⟩ := upFrom_sub hu
  have : ∃ k0, n0.kids[j]? = some k0 := by
    obtain ⟨k0, upk0, g3, -⟩ := upFrom_sub hk'
    rw [sub_append g1] at g3
    obtain ⟨dn, ms, ks⟩ := n0
    simp only [RTree.sub] at g3
    cases hx : ks[j]? with
    | none => simp [hx] at g3
    | some x => exact ⟨x, hx⟩
  obtain ⟨k0, hk0⟩ := this
  have h2 := upFrom_kid hu g1 hk0
  exact ⟨h1, _, h2, (w.data h1 h2).1.symm⟩

theorem Watched.question {p : List Nat} {n : RTree} {d : Data} {up : List Data} (hn : i'.tree.sub p = some n)
    (hu : i.chain p = some (d :: up)) {q : Span} {b : Bool} (ht : n.data.tag = .question q b) :
    ∀ k ∈ n.kids, k.marks ≠ [] := by
  obtain ⟨uses, h⟩ := w.expand
  obtain ⟨b', hd⟩ := (w.data hn hu).2.2.2 q b ht
  have hr := reached_quiet (s := s) (w.binds.up hu) w.macros (w.left p d up hu (.inl ⟨q, b', hd⟩))
  have := C01_question_placement w.root w.nodup h hu hd
  rw [if_pos hr] at this
  obtain ⟨n2, k, g1, g2, g3⟩ := this
  rw [hn] at g1
  obtain rfl := Option.some.inj g1
  rw [skippedAt_quiet (w.binds.up hu), targetsAt_quiet (w.binds.up hu), w.targets, if_pos (by rfl)] at g3
  obtain ⟨hk, src, g3, -⟩ := g3
  simp [g2, g3]

theorem Watched.ret {p : List Nat} {n : RTree} {d : Data} {up : List Data} (hn : i'.tree.sub p = some n)
    (hu : i.chain p = some (d :: up)) (ht : n.data.tag = .ret) {sig : Sig} (hf : innermostFn (d :: up) = some (.fn sig))
    (hsig : sig.output.EndsIn ["Result"]) : ∀ k ∈ n.kids, endsIn k.bare.callee ["Ok"] = false → k.marks ≠ [] := by
  obtain ⟨uses, h⟩ := w.expand
  have hd := (w.data hn hu).2.2.1 ht
  have hr := reached_quiet (s := s) (w.binds.up hu) w.macros (w.left p d up hu (.inr (.inl hd)))
  have := C02_return_placement w.root w.nodup h hu hd
  rw [if_pos hr] at this
  obtain ⟨n1, n2, -, g1, -, g2⟩ := this
  rw [hn] at g1
  obtain rfl := Option.some.inj g1
  have hres : resultAt env s (d :: up) = true := by
    rw [resultAt_iff hf, resultTypesAt_quiet (w.binds.up hu)]
    exact hsig.of_result w.results
  rcases g2 with ⟨-, g2⟩ | ⟨k, k', -, g2, g3⟩
  · simp [g2]
  · intro x hx ho
    rw [g2, List.mem_singleton] at hx
    subst hx
    rw [skippedAt_quiet (w.binds.up hu), targetsAt_quiet (w.binds.up hu), w.targets, ignoreAt_quiet (w.binds.up hu),
      endsIn_ignored w.ignore ho, hres, if_pos (by simp)] at g3
    obtain ⟨hk, src, g3, -⟩ := g3
    simp [g3]

theorem Watched.tail {p : List Nat} {n : RTree} {d : Data} {up : List Data} (hn : i'.tree.sub p = some n)
    (hu : i.chain p = some (d :: up)) (ht : n.data.edge.tail = some .fnTail) (hm : n.data.mode ≠ .untouched)
    {sig : Sig} (hf : innermostFn (d :: up) = some (.fn sig))
    (hsig : sig.output.EndsIn ["Result"]) (ho : endsIn n.bare.callee ["Ok"] = false) : n.marks ≠ [] := by
  obtain ⟨uses, h⟩ := w.expand
  obtain ⟨he, hmo, -, -⟩ := w.data hn hu
  rw [he] at ht
  rw [hmo] at hm
  have hr := reached_quiet (s := s) (w.binds.up hu) w.macros (w.left p d up hu (.inr (.inr ht)))
  have := C03_tail_placement w.root w.nodup h hu
  rw [if_pos hr] at this
  obtain ⟨n2, g1, g3⟩ := this
  rw [hn] at g1
  obtain rfl := Option.some.inj g1
  have hres : resultAt env s (d :: up) = true := by
    rw [resultAt_iff hf, resultTypesAt_quiet (w.binds.up hu)]
    exact hsig.of_result w.results
  simp only [ht] at g3
  rw [skippedAt_quiet (w.binds.up hu), targetsAt_quiet (w.binds.up hu), w.targets, ignoreAt_quiet (w.binds.up hu),
      endsIn_ignored w.ignore ho, hres, if_pos ⟨hm, by simp⟩] at g3
  obtain ⟨hk, src, g3, -⟩ := g3
  intro hne
  simp [RTree.tailMarks, hne] at g3

end

/-! ## Leaving -/

section
variable {env : Env} {s : Settings} {args : List Meta} {i i' : Item} (w : Watched env s args i i')
  {Ty : Nat → Type} {S : Setting Ty} {helpers : List TT} (hS : S.Errs)
  (hks : ∀ hk, i'.Hooked hk → hk.Keeps S helpers) {sig : Sig} (hsig : sig.output.EndsIn ["Result"])
include w hS hks hsig

omit w hS hks hsig in
/-- What is shown of each run of a node. -/
def LeavesWell (S : Setting Ty) (helpers : List TT) (i i' : Item) (sig : Sig) (n : RTree) (l : List HookData) (o : Stop Ty)
    (evs : List (Report Ty)) : Prop :=
  ∀ (p : List Nat) (d : Data) (up : List Data), i'.tree.sub p = some n → i.chain p = some (d :: up) →
    innermostFn (d :: up) = some (.fn sig) → (∀ hk ∈ l, i'.Handed hk) →
    ∀ e, o = .leave (.res (.err e)) → Seen S helpers i' e evs

theorem Watched.hand {p : List Nat} {n : RTree} {d : Data} {up : List Data} (hn : i'.tree.sub p = some n)
    (hu : i.chain p = some (d :: up)) {l : List HookData} (hl : ∀ hk ∈ l, i'.Handed hk) {j : Nat} {k : RTree}
    (hk : n.kids[j]? = some k) {e : Dyn Ty} {evs : List (Report Ty)}
    (h : S.Runs helpers k (handDown n l j) (.val (.res (.err e))) evs) :
    endsIn k.bare.callee ["Ok"] = false ∧ (k.marks ≠ [] → ∀ e', e' = e ∨ S.conv e e' → Seen S helpers i' e' evs) := by
  have hand : ∀ hk ∈ handDown n l j, i'.Handed hk := by
    intro hk h
    rw [handDown] at h
    split at h
    · exact hl hk h
    · simp at h
  have marks : ∀ m ∈ k.marks, i'.Hooked m.1 := fun m hm => ⟨_, _, (w.kid hn hu hk).1, m, hm, rfl⟩
  obtain ⟨g0, pre, ev0, ev1, e0, g1, g2, g3⟩ := runs_err hS h (fun m hm => hks _ (marks m hm)) (fun x hx => hks x (hand x hx).hooked)
  exact ⟨g0, fun hne e' he => ⟨pre, ev0, ev1, _, k, _, e0, e, g1, (w.kid hn hu hk).1, g2, hne, hand, g3, he⟩⟩

theorem runs_leave {n : RTree} {l : List HookData} {o : Stop Ty} {evs : List (Report Ty)}
    (h : S.Runs helpers n l o evs) : LeavesWell S helpers i i' sig n l o evs := by
  refine Setting.Runs.rec (motive_1 := fun n l o evs _ => LeavesWell S helpers i i' sig n l o evs)
    (motive_2 := fun _ _ _ _ => True) (motive_3 := fun n l o evs _ => LeavesWell S helpers i i' sig n l o evs)
    ?_ ?_ ?_ ?_ ?_ ?_ ?_ ?_ ?_ ?_ ?_ h
  · intro n l o o' e1 e2 h1 h2 h3 ih p d up hn hu hf hl e ho
    obtain ⟨g1, g2⟩ := hooks_leave h3 ho
    rw [g2, List.append_nil]
    exact ih p d up hn hu hf (by simp) e g1
  · intro n l o e1 h1 h2 ih p d up hn hu hf hl e ho
    refine ih p d up hn hu hf ?_ e ho
    intro k hk
    rcases List.mem_append.1 hk with hk | hk
    · obtain ⟨m, hm, rfl⟩ := List.mem_map.1 hk
      exact ⟨p, n, hn, h1, m, hm, rfl⟩
    · exact hl k hk
  · exact fun {_ _} => trivial
  · intros
    trivial
  · intro n l v e1 e2 h1 h2 h3 _ p d up hn hu hf hl e ho
    cases ho
  · intro n l e1 h1 _ p d up hn hu hf hl e ho
    cases ho
  · intro n l j k v e1 e2 h1 h2 h3 h4 _ ih p d up hn hu hf hl e ho
    obtain ⟨g1, dk, g2, g3⟩ := w.kid hn hu h2
    refine (ih _ dk (d :: up) g1 g2 ?_ ?_ e ho).after _
    · rw [innermostFn, List.findSome?_cons, g3, h3]
      exact hf
    · intro hk h
      rw [handDown] at h
      split at h
      · exact hl hk h
      · simp at h
  · intro n l q j k e0 e' e1 e2 h1 h2 h3 h4 h5 _ _ p d up hn hu hf hl e ho
    obtain rfl : e' = e := by simpa using ho
    obtain ⟨-, g⟩ := w.hand hS hks hsig hn hu hl h3 h4
    exact (g (w.question hn hu h1 k (List.mem_of_getElem? h3)) _ (.inr h5)).after _
  · intro n l q e1 h1 h2 _ p d up hn hu hf hl e ho
    cases ho
  · intro n l j k v e1 e2 h1 h2 h3 h4 _ _ p d up hn hu hf hl e ho
    obtain rfl : v = .res (.err e) := by simpa using ho
    obtain ⟨g0, g⟩ := w.hand hS hks hsig hn hu hl h3 h4
    exact (g (w.ret hn hu h1 hf hsig k (List.mem_of_getElem? h3) g0) _ (.inl rfl)).after _
  · intro n l e1 h1 h2 _ p d up hn hu hf hl e ho
    cases ho

theorem call_err {p : List Nat} {f : RTree} (hp : i'.tree.sub p = some f)
    (hfn : ∀ k ∈ f.kids, k.data.edge.fn = some (.fn sig))
    (hend : ∀ k, f.kids.getLast? = some k → k.data.edge.tail ≠ none ∨ k.data.tag = .mac →
      k.data.edge.tail ≠ some .fnTail ∨ k.data.mode = .untouched → ∀ e evs, ¬ S.Runs helpers k [] (.val (.res (.err e))) evs)
    {e : Dyn Ty} {evs : List (Report Ty)} (h : S.Call helpers f (.res (.err e)) evs) : Seen S helpers i' e evs := by
  obtain ⟨uses, hx⟩ := w.expand
  obtain ⟨d, up, hu⟩ := chain_of_output w.root w.nodup hx _ _ hp
  have inn : ∀ {k : RTree} {dk : Data}, k ∈ f.kids → dk.edge = k.data.edge → innermostFn (dk :: d :: up) = some (.fn sig) := by
    intro k dk hk h
    rw [innermostFn, List.findSome?_cons, h, hfn k hk]
  cases h with
  | @tail k _ e1 e2 h1 h2 h3 h4 =>
    have hk : k ∈ f.kids := List.mem_of_getLast? h2
    obtain ⟨j, hj⟩ := List.getElem?_of_mem hk
    obtain ⟨g1, dk, g2, g3⟩ := w.kid hp hu hj
    have g4 : k.data.edge.tail = some .fnTail ∧ k.data.mode ≠ .untouched := by
      by_contra hc
      refine hend k h2 h3 ?_ e e2 h4
      by_contra hd
      exact hc ⟨by_contra fun h => hd (.inl h), fun h => hd (.inr h)⟩
    obtain ⟨g0, pre, ev0, ev1, e0, rfl, k1, k2⟩ := runs_err hS h4 (fun m hm => hks _ ⟨_, _, g1, m, hm, rfl⟩) (by simp)
    exact Seen.after ⟨pre, ev0, ev1, _, k, [], e0, e, rfl, g1, k1, w.tail g1 g2 g4.1 g4.2 (inn hk g3) hsig g0, by simp, k2,
      .inl rfl⟩ _
  | @leave k _ e1 e2 h1 hk h3 =>
    obtain ⟨j, hj⟩ := List.getElem?_of_mem hk
    obtain ⟨g1, dk, g2, g3⟩ := w.kid hp hu hj
    exact (runs_leave w hS hks hsig h3 _ dk (d :: up) g1 g2 (inn hk g3) (by simp) e rfl).after _

end

theorem Watched.builtin {env : Env} {args : List Meta} {s : Settings} {i i' : Item} {uses : List Path} {helpers : List TT}
    {doc : PresetDoc} (hp : Builtin env args helpers doc) (he : doc.path ≠ ["empty"]) (hs : rootSettings env args = .ok s)
    (h : hooqImpls env args i = .ok (uses, i')) (hb : i.OnlyBinds env) (hl : i.NoneLeft) : Watched env s args i i' := by
  obtain ⟨f, hd, ⟨h1, -, h3, h4, h5, -⟩, -⟩ := hp.settings hs
  have hm := hd.hookInMacros.2 he
  refine ⟨hs, hp.nodup hs, ⟨_, h⟩, ?_, ?_, ?_, by rw [h5, hm],
    fun p n hn a ha => (hb p n hn a ha).toKeepsTargets, hl⟩
  · rw [h1, hd.targets, if_neg he]
  · rw [h3, hd.ignoreIdents, if_neg he]; simp
  · rw [h4, hd.resultTypes, if_neg he]; simp

/-- C96 for arbitrary flavors and methods.  Where all targets are hooked, only `Ok` is ignored and
`Result` is known, and all methods keep an `Ok` and give an error for an error: every error that
a function returns has just passed a hook. -/
theorem C96_any_flavor {env : Env} {args : List Meta} {s : Settings} {i i' : Item} {uses : List Path}
    (hs : rootSettings env args = .ok s) (hn : s.bindings.keys.Nodup) (h : hooqImpls env args i = .ok (uses, i'))
    (ht : s.targets = ⟨true, true, true⟩) (hi : ∀ x ∈ s.ignoreIdents, x = "Ok") (hr : "Result" ∈ s.resultTypes)
    (hm : s.hookInMacros = true) (hb : i.KeepsTargets env) (hl : i.NoneLeft)
    {Ty : Nat → Type} {S : Setting Ty} {helpers : List TT} (hS : S.Errs) (hk : ∀ hk, i'.Hooked hk → hk.Keeps S helpers)
    {p : List Nat} {f : RTree} (hf : i'.tree.sub p = some f) {sig : Sig}
    (hfn : ∀ k ∈ f.kids, k.data.edge.fn = some (.fn sig)) (hsig : sig.output.EndsIn ["Result"])
    (hend : ∀ k, f.kids.getLast? = some k → k.data.edge.tail ≠ none ∨ k.data.tag = .mac →
      k.data.edge.tail ≠ some .fnTail ∨ k.data.mode = .untouched → ∀ e evs, ¬ S.Runs helpers k [] (.val (.res (.err e))) evs)
    {e : Dyn Ty} {evs : List (Report Ty)} (hcall : S.Call helpers f (.res (.err e)) evs) :
    ∃ pre ev hk sc e0 e1, evs = pre ++ ev ∧ i'.Hooked hk ∧
      Does (S.world hk) helpers (Locals.ofScope sc) hk.toks (.err e0) (.err e1) ev ∧ (e = e1 ∨ S.conv e1 e) := by
  obtain ⟨pre, ev0, ev1, q, n, hks, e0, e1, rfl, hq, -, hne, hhk, hpass, hconv⟩ :=
    call_err ⟨hs, hn, ⟨_, h⟩, ht, hi, hr, hm, hb, hl⟩ hS hk hsig hf hfn hend hcall
  obtain ⟨pre', ev, x, sc, a, k1, rfl, k2⟩ := hpass.last (by simp [hne])
  refine ⟨pre ++ (ev0 ++ pre'), ev, x, sc, a, e1, by simp, ?_, k2, hconv⟩
  rcases List.mem_append.1 k1 with k1 | k1
  · obtain ⟨m, hm, rfl⟩ := List.mem_map.1 k1
    exact ⟨q, n, hq, m, hm, rfl⟩
  · exact (hhk x k1).hooked

/-- The hooks of these flavors are silent about an `Ok`. -/
theorem silent_builtin {env : Env} {args : List Meta} {i i' : Item}
    {uses : List Path} {helpers : List TT} {doc : PresetDoc} (hp : Builtin env args helpers doc)
    (hh : ∀ t ∈ helpers, t.InPath) {flavor : String} (hx : doc.path.head? = some flavor)
    (hc : flavor ∈ ["default", "log", "tracing", "anyhow", "eyre", "color_eyre"])
    (hm : NoMethodSet env i) (hsrc : i.IsSource) (h : hooqImpls env args i = .ok (uses, i'))
    {Ty : Nat → Type} {S : Setting Ty} {pretty line : HookData → String}
    (hW : ∀ hk, (S.world hk).excerpt "excerpted_pretty_stringify" = some (pretty hk) ∧
      (S.world hk).excerpt "one_line_stringify" = some (line hk)) : ∀ hk, i'.Hooked hk → hk.Silent S helpers := by
  simp only [List.mem_cons, List.not_mem_nil, or_false] at hc
  intro hk hk'
  have : ∃ n K, hk.Acts helpers n K ∧ ∀ wrap (r r' : Res Ty), K wrap r r' → ∀ e, r = .err e → ∃ e', r' = .err e' := by
    by_cases hlook : flavor ∈ ["default", "log", "tracing"]
    · refine ⟨_, _, C95_looks hp hh hx hlook hm hsrc h hk', ?_⟩
      rintro wrap r r' rfl e rfl
      exact ⟨e, rfl⟩
    · refine ⟨_, _, C95_wraps hp hh hx ?_ hm hsrc h hk', ?_⟩
      · simp only [List.mem_cons, List.not_mem_nil, or_false] at hlook ⊢
        tauto
      · intro wrap r r' hK e hr
        obtain ⟨f, s, hr'⟩ := hK e hr
        exact ⟨_, hr'⟩
  obtain ⟨n, K, ⟨h1, -, h2⟩, h3⟩ := this
  refine ⟨h1, fun sc r r' evs hd => ?_⟩
  obtain ⟨a, b, g1, g2, g3⟩ := h2 (S.world hk) sc _ _ (hW hk).1 (hW hk).2 r
  obtain ⟨rfl, rfl⟩ := (g1 _ _).1 hd
  cases r with
  | ok v => exact .inl ⟨v, rfl, (g3 v).1 rfl⟩
  | err e =>
    obtain ⟨e', he'⟩ := h3 _ _ _ g2 e rfl
    exact .inr ⟨e, e', rfl, he'⟩

/-- The hooks of these flavors keep an `Ok` and give an error for an error. -/
theorem keeps_builtin {env : Env} {args : List Meta} {i i' : Item}
    {uses : List Path} {helpers : List TT} {doc : PresetDoc} (hp : Builtin env args helpers doc)
    (hh : ∀ t ∈ helpers, t.InPath) {flavor : String} (hx : doc.path.head? = some flavor)
    (hc : flavor ∈ ["default", "log", "tracing", "anyhow", "eyre", "color_eyre"])
    (hb : i.OnlyBinds env) (hsrc : i.IsSource) (h : hooqImpls env args i = .ok (uses, i'))
    {Ty : Nat → Type} {S : Setting Ty} {pretty line : HookData → String}
    (hW : ∀ hk, (S.world hk).excerpt "excerpted_pretty_stringify" = some (pretty hk) ∧
      (S.world hk).excerpt "one_line_stringify" = some (line hk)) : ∀ hk, i'.Hooked hk → hk.Keeps S helpers :=
  fun hk hk' => (silent_builtin hp hh hx hc (fun p n hn a ha => (hb p n hn a ha).method) hsrc h hW hk hk').keeps

/-- What a hook of the item that got an error made of it and reported. -/
theorem hook_reports {env : Env} {args : List Meta} {s : Settings} {i i' : Item}
    {uses : List Path} {helpers : List TT} {doc : PresetDoc} (hp : Builtin env args helpers doc)
    (hh : ∀ t ∈ helpers, t.InPath) {flavor : String} (hx : doc.path.head? = some flavor)
    (hno : flavor ≠ "hook") (hs : rootSettings env args = .ok s)
    (hm : NoMethodSet env i) (hsrc : i.IsSource) (h : hooqImpls env args i = .ok (uses, i'))
    {Ty : Nat → Type} {W : World Ty} {pretty line : String}
    (hW : W.excerpt "excerpted_pretty_stringify" = some pretty) (hW' : W.excerpt "one_line_stringify" = some line)
    {q : List Nat} {n' : RTree} (hn : i'.tree.sub q = some n') {m : HookData × RTree} (hmk : m ∈ n'.marks)
    {sc : Scope Ty} {e0 e1 : Dyn Ty} {ev : List (Report Ty)}
    (hd : Does W helpers (Locals.ofScope sc) m.1.toks (.err e0) (.err e1) ev) :
    ∃ d up sp, i.chain q = some (d :: up) ∧ IsAnchor (d :: up) n' m.1.kind sp ∧
      let level := (nearest (bindingOf env "level") (targetUp m.1.kind (d :: up))).or (s.bindings.get? "level")
      let x := W.reports sc flavor level ⟨sp.file, sp.line, sp.col⟩ pretty line e0
      ev = x.2 ∧ e1 = x.1 ∧ (flavor = "log" ∨ flavor = "tracing" → level ≠ none) := by
  obtain ⟨d, up, hu, hr⟩ := mark_reached hs (hp.nodup hs) hsrc h hn hmk
  obtain ⟨n1, g1, g2⟩ := C94_reports hp hh hx hno hs h hu hr (hm.plain hu)
  rw [hn] at g1
  obtain rfl := Option.some.inj g1
  obtain ⟨sp, ha, hlev, g3⟩ := g2 m hmk
  have g4 := (g3 W sc hW hW' _ _ _).1 hd
  simp only [World.outcome, Prod.mk.injEq, Res.err.injEq] at g4
  obtain ⟨rfl, rfl⟩ := g4
  refine ⟨d, up, sp, hu, ha, rfl, rfl, fun hl => ?_⟩
  obtain ⟨x', hx', -, hx''⟩ := preset_head hp.row
  obtain rfl : flavor = x' := Option.some.inj (hx.symm.trans hx')
  obtain ⟨l, hl'⟩ := hx'' hl
  obtain ⟨v, hv, -⟩ := hlev l hl'
  intro hn
  cases hv.symm.trans hn

/-- C96.  Every error that a function of the output returns, in whatever run, has just passed
a hook: the end of everything that is reported is what the flavor reports of an error, with
the place of a target of this item, and the returned error is this one (with the text in
front under `anyhow` and `eyre`), or what `?` converts it to. -/
theorem C96_last_hook {env : Env} {args : List Meta} {s : Settings} {i i' : Item}
    {uses : List Path} {helpers : List TT} {doc : PresetDoc} (hp : Builtin env args helpers doc)
    (hh : ∀ t ∈ helpers, t.InPath) {flavor : String} (hx : doc.path.head? = some flavor)
    (hc : flavor ∈ ["default", "log", "tracing", "anyhow", "eyre", "color_eyre"]) (hs : rootSettings env args = .ok s)
    (hb : i.OnlyBinds env) (hl : i.NoneLeft) (hsrc : i.IsSource) (h : hooqImpls env args i = .ok (uses, i'))
    {Ty : Nat → Type} {S : Setting Ty} {pretty line : HookData → String}
    (hW : ∀ hk, (S.world hk).excerpt "excerpted_pretty_stringify" = some (pretty hk) ∧
      (S.world hk).excerpt "one_line_stringify" = some (line hk)) (hS : S.Errs)
    {p : List Nat} {f : RTree} (hf : i'.tree.sub p = some f) {sig : Sig}
    (hfn : ∀ k ∈ f.kids, k.data.edge.fn = some (.fn sig)) (hsig : sig.output.EndsIn ["Result"])
    (hend : ∀ k, f.kids.getLast? = some k → k.data.edge.tail ≠ none ∨ k.data.tag = .mac →
      k.data.edge.tail ≠ some .fnTail ∨ k.data.mode = .untouched → ∀ e evs, ¬ S.Runs helpers k [] (.val (.res (.err e))) evs)
    {e : Dyn Ty} {evs : List (Report Ty)} (hcall : S.Call helpers f (.res (.err e)) evs) :
    ∃ pre q d up n' m sp sc e0, i.chain q = some (d :: up) ∧ i'.tree.sub q = some n' ∧ m ∈ n'.marks ∧
      IsAnchor (d :: up) n' m.1.kind sp ∧
      let level := (nearest (bindingOf env "level") (targetUp m.1.kind (d :: up))).or (s.bindings.get? "level")
      let x := (S.world m.1).reports sc flavor level ⟨sp.file, sp.line, sp.col⟩ (pretty m.1) (line m.1) e0
      evs = pre ++ x.2 ∧ (e = x.1 ∨ S.conv x.1 e) ∧ (flavor = "log" ∨ flavor = "tracing" → level ≠ none) := by
  have hm : NoMethodSet env i := fun p n hn a ha => (hb p n hn a ha).method
  have he : doc.path ≠ ["empty"] := by
    rintro hd
    rw [hd] at hx
    obtain rfl := Option.some.inj hx
    simp at hc
  have hno : flavor ≠ "hook" := by
    rintro rfl
    simp at hc
  have w := Watched.builtin hp he hs h hb hl
  obtain ⟨pre, ev0, ev1, q, n, hks, e0, e1, rfl, hq, -, hne, hhk, hpass, hconv⟩ :=
    call_err w hS (keeps_builtin hp hh hx hc hb hsrc h hW) hsig hf hfn hend hcall
  obtain ⟨pre', ev, hk, sc, a, k1, rfl, k2⟩ := hpass.last (by simp [hne])
  have hk' : i'.Hooked hk := by
    rcases List.mem_append.1 k1 with k1 | k1
    · obtain ⟨m, hm, rfl⟩ := List.mem_map.1 k1
      exact ⟨q, n, hq, m, hm, rfl⟩
    · exact (hhk hk k1).hooked
  obtain ⟨q', n', g2, m, g3, rfl⟩ := hk'
  obtain ⟨d, up, sp, g1, g4, rfl, rfl, g6⟩ := hook_reports hp hh hx hno hs hm hsrc h (hW m.1).1 (hW m.1).2 g2 g3 k2
  exact ⟨pre ++ (ev0 ++ pre'), q', d, up, n', m, sp, sc, a, g1, g2, g3, g4, by simp, hconv, g6⟩

/-- C96 for the default flavor: the last line printed before an error leaves a function names
the place of a `?`, `return` or trailing expression and shows this error. -/
theorem C96_printed {env : Env} {args : List Meta} {i i' : Item}
    {uses : List Path} {helpers : List TT} {doc : PresetDoc} (hp : Builtin env args helpers doc)
    (hh : ∀ t ∈ helpers, t.InPath) (hx : doc.path.head? = some "default")
    (hb : i.OnlyBinds env) (hl : i.NoneLeft) (hsrc : i.IsSource) (h : hooqImpls env args i = .ok (uses, i'))
    {Ty : Nat → Type} {S : Setting Ty} {pretty line : HookData → String}
    (hW : ∀ hk, (S.world hk).excerpt "excerpted_pretty_stringify" = some (pretty hk) ∧
      (S.world hk).excerpt "one_line_stringify" = some (line hk)) (hS : S.Errs)
    {p : List Nat} {f : RTree} (hf : i'.tree.sub p = some f) {sig : Sig}
    (hfn : ∀ k ∈ f.kids, k.data.edge.fn = some (.fn sig)) (hsig : sig.output.EndsIn ["Result"])
    (hend : ∀ k, f.kids.getLast? = some k → k.data.edge.tail ≠ none ∨ k.data.tag = .mac →
      k.data.edge.tail ≠ some .fnTail ∨ k.data.mode = .untouched → ∀ e evs, ¬ S.Runs helpers k [] (.val (.res (.err e))) evs)
    {e : Dyn Ty} {evs : List (Report Ty)} (hcall : S.Call helpers f (.res (.err e)) evs) :
    ∃ pre q d up n' m sp e0, i.chain q = some (d :: up) ∧ i'.tree.sub q = some n' ∧ m ∈ n'.marks ∧
      IsAnchor (d :: up) n' m.1.kind sp ∧ (e = e0 ∨ S.conv e0 e) ∧
      evs = pre ++ [.printed ("[" ++ sp.file ++ ":" ++ toString sp.line ++ ":" ++ toString sp.col ++ "] " ++
        (S.world m.1).debug e0 ++ "\n" ++ pretty m.1 ++ "\n")] := by
  obtain ⟨s, hs⟩ := rootSettings_of_ok h
  obtain ⟨pre, q, d, up, n', m, sp, sc, e0, h1, h2, h3, h4, h5, h6, -⟩ :=
    C96_last_hook hp hh hx (by simp) hs hb hl hsrc h hW hS hf hfn hsig hend hcall
  refine ⟨pre, q, d, up, n', m, sp, e0, h1, h2, h3, h4, ?_, ?_⟩
  · simpa [World.reports] using h6
  · rw [h5]
    simp [World.reports, Where.text, String.append_assoc]

section
open Ex
set_option maxRecDepth 10000

theorem Ex.levelled_binds : levelled.OnlyBinds env := fun p n hs a ha => by
  have := allNodes_sub (t := levelled.tree) (f := fun n => n.data.seen.all fun a =>
    (methodOf env a).isNone && (targetsOf env a).isNone && (tailIdentsOf env a).isNone &&
    (match ignoreOf env a with | .keep => true | _ => false) && (resultTypesOf env a).isNone &&
    (macrosOf env a).isNone && !a.isSkip && !a.isSkipAll) rfl hs
  simp only [List.all_eq_true, Bool.and_eq_true, Option.isNone_iff_eq_none, Bool.not_eq_true'] at this
  obtain ⟨⟨⟨⟨⟨⟨⟨h1, h2⟩, h3⟩, h4⟩, h5⟩, h6⟩, h7⟩, h8⟩ := this a ha
  refine ⟨⟨h2, h3, ?_, h5, h6, h7, h8⟩, h1⟩
  split at h4
  · assumption
  · cases h4

theorem Ex.levelled_left : levelled.NoneLeft := fun p d up hu _ e he => by
  rcases chain_mem hu he with h | ⟨q, n, h1, rfl⟩
  · simp at h
  · exact allNodes_sub (t := levelled.tree) (f := fun n => n.data.edge.visit) rfl h1

/-- Whatever is not a call of `Ok` or an operator expression gives the error 5; `?` leaves
errors as they are. -/
def Ex.setting : Setting (fun t => if t = 1 then String else Nat) :=
  { world := fun _ => Ex.world
    conv := fun a b => a = b
    gives := fun n v evs => v = .res (.err ⟨0, (5 : Nat)⟩) ∧ evs = [] ∧ n.data.rear = .closed ∧
      endsIn n.bare.callee ["Ok"] = false }

theorem Ex.setting_errs : Ex.setting.Errs := fun _ _ _ h => h.2.2

/-- The function of `Ex.levelled` can return the error 5, if something in it gives this. -/
theorem Ex.levelled_runs {S : Setting (fun t => if t = 1 then String else Nat)} (hw : S.world = fun _ => Ex.world)
    (hconv : ∀ e, S.conv e e) {ev0 : List (Report fun t => if t = 1 then String else Nat)}
    (hg : ∀ n : RTree, n.data.rear = .closed → endsIn n.bare.callee ["Ok"] = false → S.gives n (.res (.err ⟨0, (5 : Nat)⟩)) ev0) :
    ∃ i' ev, hooqImpls env logArgs levelled = .ok ([], i') ∧
      S.Call [tkId "helpers"] i'.tree (.res (.err ⟨0, (5 : Nat)⟩)) (ev0 ++ [ev]) := by
  have hh : ∀ t ∈ [tkId "helpers"], t.InPath := by simp [TT.InPath, tkId]
  obtain ⟨i', k, n, m, h1, h2, h3, h4, h5, h6, h7, h8, h9, h10⟩ : ∃ i' k n m,
      hooqImpls env logArgs levelled = .ok ([], i') ∧ k ∈ i'.tree.kids ∧ k.kids[0]? = some n ∧ n.marks = [m] ∧
      i'.tree.sub [0, 0] = some n ∧ k.data.tag = .question (sp 11 9) false ∧ k.data.rear = .closed ∧
      n.data.rear = .closed ∧ n.data.tag ≠ .ret ∧ endsIn n.bare.callee ["Ok"] = false := by
    refine ⟨_, _, _, _, rfl, List.mem_cons_self, rfl, rfl, rfl, rfl, rfl, rfl, ?_, rfl⟩
    intro h
    cases h
  obtain ⟨hm, -, hd⟩ := C95_looks (x := "log") logged_builtin hh rfl (by simp) levelled_noMethod levelled_source h1
    (hk := m.1) ⟨[0, 0], n, h5, m, by simp [h4], rfl⟩
  obtain ⟨r', evs, g1, rfl, g2⟩ := hd Ex.world (fun _ => none) _ _ rfl rfl (.err ⟨0, (5 : Nat)⟩)
  obtain ⟨ev, rfl⟩ : ∃ ev, evs = [ev] := List.length_eq_one_iff.1 ((g2 _).2 rfl)
  refine ⟨i', ev, h1, ?_⟩
  have e0 : S.Runs [tkId "helpers"] n (handDown k [] 0) (.val (.res (.err ⟨0, (5 : Nat)⟩))) (([] ++ ev0) ++ ([ev] ++ [])) := by
    refine .closed h8 (.gives h9 .nil (hg n h8 h10)) ?_
    have : handDown k [] 0 = [] := by simp [handDown]
    rw [h4, this]
    exact .cons (.res (fun _ => none) hm (by rw [hw]; exact (g1 _ _).2 ⟨rfl, rfl⟩)) .nil
  have := Setting.Call.leave (f := i'.tree) (.nil (S := S)) h2
    (.closed h7 (.question h6 .nil h3 e0 (hconv _)) .leave)
  simpa using this

/-- There are such runs, with one report. -/
theorem Ex.levelled_run : ∃ i' ev, hooqImpls env logArgs levelled = .ok ([], i') ∧
    Ex.setting.Call [tkId "helpers"] i'.tree (.res (.err ⟨0, (5 : Nat)⟩)) [ev] :=
  Ex.levelled_runs (S := Ex.setting) (ev0 := []) rfl (fun _ => rfl) fun _ h1 h2 => ⟨rfl, rfl, h1, h2⟩

/-- `*w? = k; Ok(k)`: an assignment through a place that may fail. -/
def Ex.leftward : Item :=
  .fn [] { ident := "f", output := result, text := "fn f () -> Result" }
    [.expr (.mk [] (sp 11 1) (.assign (.mk [] (sp 11 1) (.unary "*" (quest [] (var "w" 11) 11))) (var "k" 11))) true,
     .expr (call "Ok" [var "k" 12] 12) false]

/-- What `NoneLeft` excludes: there the error leaves the function and nothing is reported. -/
theorem C96_left_escapes : ∃ i', hooqImpls env [] leftward = .ok ([], i') ∧
    Ex.setting.Call [] i'.tree (.res (.err ⟨0, (5 : Nat)⟩)) [] := by
  obtain ⟨i', a, u, k, n, h1, h2, h3, h4, h5, m1, m2, m3, m4, r1, r2, h6, h7, h8, h9, h10, f1, f2⟩ : ∃ i' a u k n,
      hooqImpls env [] leftward = .ok ([], i') ∧ a ∈ i'.tree.kids ∧ a.kids[0]? = some u ∧ u.kids[0]? = some k ∧
      k.kids[0]? = some n ∧ a.marks = [] ∧ u.marks = [] ∧ k.marks = [] ∧ n.marks = [] ∧
      a.data.rear ≠ .closed ∧ u.data.rear ≠ .closed ∧ k.data.tag = .question (sp 11 9) false ∧ k.data.rear = .closed ∧
      n.data.rear = .closed ∧ n.data.tag ≠ .ret ∧ endsIn n.bare.callee ["Ok"] = false ∧
      u.data.edge.fn = none ∧ k.data.edge.fn = none := by
    refine ⟨_, _, _, _, _, rfl, List.mem_cons_self, rfl, rfl, rfl, rfl, rfl, rfl, rfl, ?_, ?_, rfl, rfl, rfl, ?_, rfl, rfl, rfl⟩
      <;> intro h <;> cases h
  refine ⟨i', h1, ?_⟩
  have hand : ∀ x j, handDown x [] j = [] := by simp [handDown]
  have e0 : Ex.setting.Runs [] n [] (.val (.res (.err ⟨0, (5 : Nat)⟩))) (([] ++ []) ++ []) :=
    .closed h8 (.gives h9 .nil ⟨rfl, rfl, h8, h10⟩) (by rw [m4]; exact .nil)
  have e1 : Ex.setting.Runs [] k [] (.leave (.res (.err ⟨0, (5 : Nat)⟩))) (([] ++ (([] ++ []) ++ [])) ++ []) :=
    .closed h7 (.question h6 .nil h5 (by rw [hand]; exact e0) rfl) .leave
  have e2 : Ex.setting.Runs [] u [] (.leave (.res (.err ⟨0, (5 : Nat)⟩))) ([] ++ (([] ++ (([] ++ []) ++ [])) ++ [])) := by
    refine .open_ r2 ?_
    rw [m2]
    exact .leave .nil h4 f2 (by rw [List.map_nil, List.nil_append, hand]; exact e1)
  have e3 : Ex.setting.Runs [] a [] (.leave (.res (.err ⟨0, (5 : Nat)⟩)))
      ([] ++ ([] ++ (([] ++ (([] ++ []) ++ [])) ++ []))) := by
    refine .open_ r1 ?_
    rw [m1]
    exact .leave .nil h3 f1 (by rw [List.map_nil, List.nil_append, hand]; exact e2)
  exact .leave (e2 := ([] ++ ([] ++ (([] ++ (([] ++ []) ++ [])) ++ [])))) .nil h2 e3

theorem Ex.levelled_shape {i' : Item} (h1 : hooqImpls env logArgs levelled = .ok ([], i')) : ∃ k1 k2,
      i'.tree.kids = [k1, k2] ∧
      k1.data.edge.fn = some (.fn { ident := "f", output := result, text := "fn f () -> Result" }) ∧
      k2.data.edge.fn = some (.fn { ident := "f", output := result, text := "fn f () -> Result" }) ∧
      k2.data.edge.tail = some .fnTail ∧ k2.data.mode ≠ .untouched := by
  obtain ⟨i2, k1, k2, h3, h4, h5, h6, h7, h8⟩ : ∃ i2 k1 k2, hooqImpls env logArgs levelled = .ok ([], i2) ∧
      i2.tree.kids = [k1, k2] ∧
      k1.data.edge.fn = some (.fn { ident := "f", output := result, text := "fn f () -> Result" }) ∧
      k2.data.edge.fn = some (.fn { ident := "f", output := result, text := "fn f () -> Result" }) ∧
      k2.data.edge.tail = some .fnTail ∧ k2.data.mode ≠ .untouched := by
    refine ⟨_, _, _, rfl, rfl, rfl, rfl, rfl, ?_⟩
    intro h
    cases h
  obtain rfl : i2 = i' := by simpa using h3.symm.trans h1
  exact ⟨k1, k2, h4, h5, h6, h7, h8⟩

/-- The hypotheses of C96 hold for `Ex.levelled`: the error that leaves it was logged. -/
example : ∃ i' ev, hooqImpls env logArgs levelled = .ok ([], i') ∧
    Ex.setting.Call [tkId "helpers"] i'.tree (.res (.err ⟨0, (5 : Nat)⟩)) [ev] ∧
    ∃ level text, ev = .logged level text := by
  obtain ⟨i', ev, h1, h2⟩ := Ex.levelled_run
  refine ⟨i', ev, h1, h2, ?_⟩
  have hh : ∀ t ∈ [tkId "helpers"], t.InPath := by simp [TT.InPath, tkId]
  obtain ⟨s, hs⟩ := rootSettings_of_ok h1
  obtain ⟨k1, k2, h4, h5, h6, h7, h8⟩ := levelled_shape h1
  obtain ⟨pre, q, d, up, n', m, sp, sc, e0, -, -, -, -, g1, -, g2⟩ := C96_last_hook (p := []) (flavor := "log")
    (S := Ex.setting) (pretty := fun _ => "  11> w?\n    |") (line := fun _ => "w?") logged_builtin hh rfl (by simp) hs
    levelled_binds levelled_left levelled_source h1 (fun _ => ⟨rfl, rfl⟩) setting_errs rfl
    (sig := { ident := "f", output := result, text := "fn f () -> Result" }) (by rw [h4]; simp [h5, h6]) ⟨_, _, rfl, rfl, by decide⟩
    (by
      rw [h4]
      rintro k hk - (h | h)
      · simp at hk; subst hk; exact absurd h7 h
      · simp at hk; subst hk; exact absurd h h8) h2
  cases hlev : (nearest (bindingOf env "level") (targetUp m.1.kind (d :: up))).or (s.bindings.get? "level") with
  | none => exact absurd hlev (g2 (.inl rfl))
  | some v =>
    rw [hlev] at g1
    simp only [World.reports, String.reduceEq, if_false, if_true, Option.map, Option.toList] at g1
    have := congrArg List.getLast? g1
    simp only [List.getLast?_singleton, List.getLast?_append, Option.some_or, Option.some.injEq] at this
    exact ⟨_, _, this⟩

/-- So do those of the form for arbitrary flavors. -/
example : ∃ i' ev, hooqImpls env logArgs levelled = .ok ([], i') ∧
    ∃ hk sc e0 e1, i'.Hooked hk ∧ Does Ex.world [tkId "helpers"] (Locals.ofScope sc) hk.toks (.err e0) (.err e1) [ev] := by
  obtain ⟨i', ev, h1, h2⟩ := Ex.levelled_run
  have hh : ∀ t ∈ [tkId "helpers"], t.InPath := by simp [TT.InPath, tkId]
  obtain ⟨s, hs⟩ := rootSettings_of_ok h1
  obtain ⟨k1, k2, h4, h5, h6, h7, h8⟩ := levelled_shape h1
  have hk := keeps_builtin (flavor := "log") (S := Ex.setting) (pretty := fun _ => "  11> w?\n    |") (line := fun _ => "w?")
    logged_builtin hh rfl (by simp) levelled_binds levelled_source h1 fun _ => ⟨rfl, rfl⟩
  obtain ⟨-, hn, -, w1, w2, w3, w4, w5, w6⟩ := Watched.builtin logged_builtin (by simp [logDoc]) hs h1 levelled_binds levelled_left
  obtain ⟨pre, ev', hk', sc, e0, e1, g1, g2, g3, -⟩ := C96_any_flavor (p := []) hs hn h1 w1 w2 w3 w4 w5 w6 setting_errs hk rfl
    (sig := { ident := "f", output := result, text := "fn f () -> Result" }) (by rw [h4]; simp [h5, h6]) ⟨_, _, rfl, rfl, by decide⟩
    (by
      rw [h4]
      rintro k hk - (h | h)
      · simp at hk; subst hk; exact absurd h7 h
      · simp at hk; subst hk; exact absurd h h8) h2
  have hl : ev' = [ev] := by
    obtain ⟨-, -, hd⟩ := C95_looks (x := "log") logged_builtin hh rfl (by simp) levelled_noMethod levelled_source h1 g2
    obtain ⟨r', evs, k3, -, k4⟩ := hd Ex.world sc _ _ rfl rfl (.err e0)
    obtain ⟨-, rfl⟩ := (k3 _ _).1 g3
    have h9 := (k4 e0).2 rfl
    have h10 := congrArg List.length g1
    rw [List.length_append, h9, List.length_singleton] at h10
    obtain rfl : pre = [] := List.length_eq_zero_iff.1 (by omega)
    simpa using g1.symm
  exact ⟨i', ev, h1, hk', sc, e0, e1, g2, hl ▸ g3⟩

end

end Hooq
