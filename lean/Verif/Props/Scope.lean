import Verif.Spec.Scope
import Verif.Props.Placement
import Verif.Proof.Store

/-!
# Scoping of settings (C05 - C09, C13)
-/

namespace Hooq

/-! ## C08 -/

theorem lastSet_eq_find {α β : Type} (f : α → Option β) (l : List α) :
    lastSet f l = l.reverse.findSome? f := by
  induction l with
  | nil => rfl
  | cons a l ih =>
    rw [lastSet_cons, List.reverse_cons, List.findSome?_append, ih]
    cases l.reverse.findSome? f <;> simp

theorem nearest_cons {β : Type} (f : Attr → Option β) (d : Data) (up : List Data) :
    nearest f (d :: up) = (lastSet f d.seen).or (nearest f up) := by
  simp only [nearest, List.findSome?_cons, lastSet_eq_find]
  cases d.seen.reverse.findSome? f <;> rfl

theorem nearest_eq {β : Type} (f : Attr → Option β) (up : List Data) :
    lastSet f (attrsOver up) = nearest f up := by
  induction up with
  | nil => rfl
  | cons d up ih => rw [attrsOver_cons, lastSet_append, nearest_cons, ih]

theorem hookFact_target {env : Env} {s : Settings} {up : List Data} {n' : RTree} {hk : HookData}
    (h : HookFact env s up n' hk) :
    hookedAt env s (targetUp hk.kind up) hk.kind = true ∧
    ∃ sp c, IsAnchor up n' hk.kind sp ∧ IsHook env s (targetUp hk.kind up) hk.kind sp c hk := by
  cases hk' : hk.kind with
  | tail =>
    cases up with
    | nil => simp [HookFact] at h
    | cons d up =>
      simp only [HookFact, hk'] at h
      obtain ⟨_, h1, c, h2⟩ := h
      exact ⟨h1, _, c, rfl, h2⟩
  | question =>
    cases up with
    | nil => simp [HookFact] at h
    | cons d up => cases up with
      | nil => simp [HookFact, hk'] at h
      | cons d2 up =>
        simp only [HookFact, hk'] at h
        obtain ⟨q, b, c, h0, h1, h2⟩ := h
        exact ⟨h1, q, c, ⟨b, h0⟩, h2⟩
  | ret =>
    cases up with
    | nil => simp [HookFact] at h
    | cons d up => cases up with
      | nil => simp [HookFact, hk'] at h
      | cons d2 up =>
        simp only [HookFact, hk'] at h
        obtain ⟨c, h0, h1, h2⟩ := h
        exact ⟨h1, _, c, ⟨h0, rfl⟩, h2⟩

/-- C08, walker side.  Whenever the macro visits a node, it does so with a context in
which each setting is the one given by the nearest enclosing annotated node, and by
the root flavor if there is none.  Ignore identifiers given by list forms on one node
accumulate (`nodeIgnore`, see C30). -/
theorem C08_lexical_context {env : Env} {args : List Meta} {s : Settings} {i i' : Item}
    {uses : List Path} (hs : rootSettings env args = .ok s)
    (h : hooqImpls env args i = .ok (uses, i')) {p : List Nat} {d : Data} {up : List Data}
    (hu : i.chain p = some (d :: up)) (hr : reached env s (d :: up) = true) :
    ∃ n ctx hd c1 c2 n0, i.tree.sub p = some n ∧ gwalk env ctx n c1 = .ok (n0, c2) ∧
      d.handle env (d.edge.enter ctx) = .ok hd ∧
      hd.ctx.method.val = (nearest (methodOf env) (d :: up)).getD s.method ∧
      hd.ctx.targets = (nearest (targetsOf env) (d :: up)).getD s.targets ∧
      hd.ctx.tailIdents = (nearest (tailIdentsOf env) (d :: up)).getD s.tailIdents ∧
      hd.ctx.resultTypes = (nearest (resultTypesOf env) (d :: up)).getD s.resultTypes ∧
      hd.ctx.hookInMacros = (nearest (macrosOf env) (d :: up)).getD s.hookInMacros ∧
      hd.ctx.ignoreIdents
        = ((d :: up).findSome? fun e => nodeIgnore env e.seen).getD s.ignoreIdents ∧
      ∀ k, hd.ctx.bindings.get? k = (nearest (bindingOf env k) (d :: up)).or (s.bindings.get? k) := by
  obtain ⟨c', hw⟩ := expansion hs h
  obtain ⟨n, n0, n', upn, ctx', c1, c2, g1, g2, g3, g4, g5, g6, g7, g8⟩ :=
    gwalk_local (agrees_new env s) hw hu hr
  obtain ⟨dn, ms, kids⟩ := n
  rw [RTree.data_mk] at g3
  obtain ⟨rfl, rfl⟩ := List.cons.inj g3
  have hv : d.edge.visit = true := by
    rw [reached_cons] at hr; simp only [Bool.and_eq_true] at hr; exact hr.1.1
  obtain ⟨hb, hd, kids', ck, t1, ct, h1, h2, h3, h4⟩ := gwalk_inv hv g5
  have ha := agrees_step g4 h1
  refine ⟨_, ctx', hd, c1, c2, n0, g1, g5, h1, ?_, ?_, ?_, ?_, ?_, ha.ignoreIdents, ?_⟩
  · rw [ha.method_val, methodAt, nearest_eq]
  · rw [ha.targets, targetsAt, nearest_eq]
  · rw [ha.tailIdents, tailIdentsAt, nearest_eq]
  · rw [ha.resultTypes, resultTypesAt, nearest_eq]
  · rw [ha.hookInMacros, macrosAt, nearest_eq]
  · intro k; rw [ha.bindings, bindingAt, nearest_eq]

/-- C08, output side.  Every hook on a visited node is made from the method of the
nearest enclosing node of its target that sets one, for a target kind that the nearest
enclosing hook target setting enables; what it expands to (`IsHook`) depends on the
enclosing nodes of the target alone, apart from the number of the target. -/
theorem C08_lexical_hooks {env : Env} {args : List Meta} {s : Settings} {i i' : Item}
    {uses : List Path} (hs : rootSettings env args = .ok s) (hb : s.bindings.keys.Nodup)
    (h : hooqImpls env args i = .ok (uses, i')) {p : List Nat} {d : Data} {up : List Data}
    (hu : i.chain p = some (d :: up)) (hr : reached env s (d :: up) = true) :
    ∃ n', i'.tree.sub p = some n' ∧ ∀ m ∈ n'.marks,
      let tup := targetUp m.1.kind (d :: up)
      ((nearest (targetsOf env) tup).getD s.targets).has m.1.kind = true ∧
      m.1.mode = ((nearest (methodOf env) tup).getD s.method).mode ∧
      m.1.exc = ((nearest (methodOf env) tup).getD s.method).exc ∧
      ∃ sp c, IsAnchor (d :: up) n' m.1.kind sp ∧ IsHook env s tup m.1.kind sp c m.1 := by
  obtain ⟨n', h1, h2, h3⟩ := C19_at_most_one hs hb h hu hr
  refine ⟨n', h1, fun m hm => ?_⟩
  obtain ⟨g1, sp, c, g2, g3⟩ := hookFact_target (h3 m hm)
  simp only [hookedAt, Bool.and_eq_true] at g1
  have e1 := g1.2
  have e2 := g3.mode
  have e3 := g3.exc
  rw [methodAt, nearest_eq] at e2 e3
  rw [targetsAt, nearest_eq] at e1
  exact ⟨e1, e2, e3, sp, c, g2, g3⟩

/-! ## C05 -/

/-- C05.  A `?` of the input is a `?` of the output, unless the feature is on, it was
hooked, and the method in force was written with a trailing `!`; it is then consumed.
A `return` and a trailing expression stay what they are. -/
theorem C05_question_kept_at {env : Env} {args : List Meta} {s : Settings} {i i' : Item}
    {uses : List Path} (hs : rootSettings env args = .ok s) (hb : s.bindings.keys.Nodup)
    (h : hooqImpls env args i = .ok (uses, i')) {p : List Nat} {d : Data} {up : List Data}
    (hu : i.chain p = some (d :: up)) :
    ∃ n', i'.tree.sub p = some n' ∧
      n'.data.tag = match d.tag with
        | .question q b => .question q (b ||
            (reached env s (d :: up) && hookedAt env s (d :: up) .question &&
              (methodAt env s (d :: up)).exc))
        | t => t := by
  cases hr : reached env s (d :: up) with
  | false =>
    obtain ⟨n, upn, f1, f2⟩ := upFrom_sub hu
    refine ⟨n, by rw [unreached_unchanged hs h hu hr, f1], ?_⟩
    rw [← (List.cons.inj f2).1]
    cases d.tag <;> simp
  | true =>
    obtain ⟨c', hw⟩ := expansion hs h
    obtain ⟨n, n', h1, h2, h3, h4, h5, h6, h7⟩ := node_at hb (agrees_new env s) hw hu hr
    refine ⟨n', h2, ?_⟩
    cases hq : d.tag with
    | question q b =>
      obtain ⟨a, a', k', j1, j2, j3, j4, j5, j6, j7⟩ :=
        question_at (wfItem {} i) hb (agrees_new env s) hw hu hq hr
      rw [h2] at j2; obtain rfl := Option.some.inj j2
      rw [h1] at j1; obtain rfl := Option.some.inj j1
      rw [h3, hq] at j4
      obtain rfl : b = false := by simpa using j4
      simpa using j7
    | ret | call | path _ | mac | other _ => rw [h5, hq]

/-- C05.  Without the consume-question feature every `?` of the input is a `?` of the
output, whatever the methods are. -/
theorem C05_question_kept {env : Env} (hg : Genuine env) (hc : env.consume = false)
    {args : List Meta} {s : Settings} {i i' : Item}
    {uses : List Path} (hs : rootSettings env args = .ok s)
    (h : hooqImpls env args i = .ok (uses, i')) {p : List Nat} {d : Data} {up : List Data}
    (hu : i.chain p = some (d :: up)) :
    ∃ n', i'.tree.sub p = some n' ∧ n'.data.tag = d.tag := by
  obtain ⟨hb, hx⟩ := genuine_root hg hs
  obtain ⟨n', h1, h2⟩ := C05_question_kept_at hs hb h hu
  refine ⟨n', h1, ?_⟩
  rw [h2, methodAt_exc hg hc (hx hc)]
  cases d.tag <;> simp

/-! ## C06, C07 -/

theorem skippedUp_noSkip {l rest : List Data} (h : NoSkip l) (left : Bool) :
    skippedUp left (l ++ rest) = skippedUp (left || l.any fun d => d.edge.scope) rest := by
  induction l generalizing left with
  | nil => simp
  | cons d l ih =>
    obtain ⟨h1, h2⟩ := h d (by simp)
    have hl : NoSkip l := fun e he => h e (by simp [he])
    simp only [List.cons_append, skippedUp, h1, h2, Bool.false_eq_true, if_false, ih hl, List.any_cons,
      Bool.or_assoc]

/-- C06, what holds.  A position below (or at) a node with `#[hooq::skip_all]` is
skipped, provided that every `#[hooq::skip]` on the way is accompanied by a
`skip_all` on the same node.  Full statement: the same without the proviso.  It fails,
see `C06_reenabled` in Props.Exact: a nested `#[hooq::skip]` ends the `skip_all` in its
sub-scopes. -/
theorem C06_skip_all_partial {l rest : List Data} {d : Data}
    (hd : d.seen.any Meta.isSkipAll = true)
    (hl : ∀ e ∈ l, e.seen.any Meta.isSkip = true → e.seen.any Meta.isSkipAll = true) :
    skippedAt (l ++ d :: rest) = true := by
  suffices h : ∀ left, skippedUp left (l ++ d :: rest) = true from h false
  induction l with
  | nil => intro left; simp [skippedUp, hd]
  | cons e l ih =>
    intro left
    have ih' := ih fun e he => hl e (by simp [he])
    simp only [List.cons_append, skippedUp]
    split
    · rfl
    · rename_i h1
      split
      · rename_i h2; exact absurd (hl e (by simp) h2) h1
      · exact ih' _

/-- C06 on the output: no hook belongs to such a target. -/
theorem C06_skip_all_output_partial {env : Env} {args : List Meta} {s : Settings} {i i' : Item}
    {uses : List Path} (hs : rootSettings env args = .ok s) (hb : s.bindings.keys.Nodup)
    (h : hooqImpls env args i = .ok (uses, i')) {p : List Nat} {d0 : Data} {up : List Data}
    (hu : i.chain p = some (d0 :: up)) (hr : reached env s (d0 :: up) = true) :
    ∃ n', i'.tree.sub p = some n' ∧ ∀ m ∈ n'.marks, ∀ l d rest,
      targetUp m.1.kind (d0 :: up) = l ++ d :: rest → d.seen.any Meta.isSkipAll = true →
      ∃ e ∈ l, e.seen.any Meta.isSkip = true ∧ e.seen.any Meta.isSkipAll = false := by
  obtain ⟨n', h1, h2, h3⟩ := C19_at_most_one hs hb h hu hr
  refine ⟨n', h1, fun m hm l d rest he hd => ?_⟩
  obtain ⟨g1, _⟩ := hookFact_target (h3 m hm)
  simp only [hookedAt, Bool.and_eq_true, Bool.not_eq_true'] at g1
  by_contra hcon
  have hl : ∀ e ∈ l, e.seen.any Meta.isSkip = true → e.seen.any Meta.isSkipAll = true := by
    intro e he h1
    by_contra h2
    exact hcon ⟨e, he, h1, by simpa using h2⟩
  rw [he, C06_skip_all_partial hd hl] at g1
  simp at g1

/-- C07.  Below a node `d` with `#[hooq::skip]` (and no nearer skip attribute), a
position is skipped exactly when no scope is entered on the way from the node to the
position. -/
theorem C07_skip_same_scope {l rest : List Data} {d : Data} (hd : d.seen.any Meta.isSkip = true)
    (hna : d.seen.any Meta.isSkipAll = false) (hl : NoSkip l) :
    skippedAt (l ++ d :: rest) = true ↔ SameScope l := by
  rw [skippedAt, skippedUp_noSkip hl]
  simp only [skippedUp, hd, hna, Bool.false_eq_true, if_false, if_true, Bool.false_or, SameScope]
  simp

/-- C07, nested scopes.  If the way from the node to the position enters a scope, the
position is skipped iff it would be without the attribute, provided that the node is
not itself below a `skip_all`.  Full statement: the same without this proviso; it fails
for a `skip` nested in a `skip_all`, where the attribute switches hooking on again (see
`C06_reenabled`). -/
theorem C07_skip_nested_scope_partial {l rest : List Data} {d d' : Data}
    (hd : d.seen.any Meta.isSkip = true) (hna : d.seen.any Meta.isSkipAll = false)
    (hd' : NoSkip [d']) (hl : NoSkip l) (hsc : ¬ SameScope l)
    (hout : skippedUp true rest = false) :
    skippedAt (l ++ d :: rest) = skippedAt (l ++ d' :: rest) := by
  have h1 : skippedAt (l ++ d :: rest) = false := by
    rw [Bool.eq_false_iff]; intro h; exact hsc ((C07_skip_same_scope hd hna hl).1 h)
  rw [h1, skippedAt, skippedUp_noSkip hl]
  have h2 := hd' d' (by simp)
  have h3 : (l.any fun d => d.edge.scope) = true := by
    simp only [SameScope] at hsc
    simpa using hsc
  simp [skippedUp, h2.1, h2.2, h3, hout]

/-! ## C13 -/

/-- C13, what holds.  On every visited node whose attributes the macro looks at, the
inert attributes are gone and all others are there in their order, except that a
consumed `?` loses its attributes.  Attributes on all other nodes are unchanged.  Full
statement: the output contains no inert attribute.  It fails on the nodes that are
not looked at (`Data.seen = []`: match arms, `let` without initializer, paths and
literals outside tail position, ..., see the examples) and in unvisited code. -/
theorem C13_attributes_partial {env : Env} {args : List Meta} {s : Settings} {i i' : Item}
    {uses : List Path} (hs : rootSettings env args = .ok s) (hb : s.bindings.keys.Nodup)
    (h : hooqImpls env args i = .ok (uses, i')) {p : List Nat} {d : Data} {up : List Data}
    (hu : i.chain p = some (d :: up)) :
    ∃ n', i'.tree.sub p = some n' ∧
      n'.data.attrs =
        if reached env s (d :: up) = false then d.attrs
        else if d.tag.isQuestion = true ∧ hookedAt env s (d :: up) .question = true ∧
            (methodAt env s (d :: up)).exc = true then []
        else if d.mode = .untouched ∨ (d.mode = .tailOnly ∧ d.edge.tail = none) then d.attrs
        else if d.mode = .dropped then []
        else d.attrs.filter fun a => !a.isInert := by
  cases hr : reached env s (d :: up) with
  | false =>
    obtain ⟨n, upn, f1, f2⟩ := upFrom_sub hu
    refine ⟨n, by rw [unreached_unchanged hs h hu hr, f1], ?_⟩
    rw [← (List.cons.inj f2).1]
    simp
  | true =>
    obtain ⟨c', hw⟩ := expansion hs h
    obtain ⟨n, n', h1, h2, h3, h4, h5, h6, h7⟩ := node_at hb (agrees_new env s) hw hu hr
    refine ⟨n', h2, ?_⟩
    rw [h5]
    have hk : d.kept = if d.mode = .untouched ∨ (d.mode = .tailOnly ∧ d.edge.tail = none) then d.attrs
        else if d.mode = .dropped then [] else d.attrs.filter fun a => !a.isInert := by
      simp only [Data.kept]
      cases hm : d.mode <;> simp
    cases hq : d.tag with
    | question q b =>
      simp only
      by_cases hh : hookedAt env s (d :: up) .question = true ∧ (methodAt env s (d :: up)).exc = true
      · simp [hh, Tag.isQuestion]
      · have : (hookedAt env s (d :: up) .question && (methodAt env s (d :: up)).exc) = false := by
          simpa using hh
        rw [this]
        simp only [Bool.false_eq_true, if_false, hk]
        simp [hh]
    | ret | call | path _ | mac | other _ => simp [hk, Tag.isQuestion]

/-! ## C09 -/

/-- C09.  Where the macro switch is off, or the body is not a list of code, a macro
invocation keeps its body, nothing inside is counted, and the only possible error comes
from the attributes of the invocation itself. -/
theorem C09_macro_untouched (env : Env) (ctx : Ctx) (attrs : List Attr) (path : Path) (dl : Delim)
    (body : MacBody) (c : Counter)
    (h : (∃ ts, body = .raw ts) ∨ ∀ hd, handleAttrs env attrs ctx = .ok hd → hd.ctx.hookInMacros = false) :
    walkMac env ctx attrs (.mk path dl body) c
      = (handleAttrs env attrs ctx).map fun hd => ((hd.attrs, .mk path dl body), c) := by
  cases hh : handleAttrs env attrs ctx with
  | error e => simp [walkMac, hh, W.lift, bind, StateT.bind, Except.bind, Except.map]
  | ok hd =>
    rcases h with ⟨ts, rfl⟩ | h
    · cases hm : hd.ctx.hookInMacros <;>
        simp [walkMac, hh, W.lift, hm, walkMacBody, bind, StateT.bind, Except.bind, Except.map, pure,
          StateT.pure, Except.pure]
    · simp [walkMac, hh, W.lift, h hd hh, bind, StateT.bind, Except.bind, Except.map, pure,
        StateT.pure, Except.pure]

/-- C09 at a position: below a macro invocation where the macro switch in force is
off, everything stays as it is and no hook is anywhere inside. -/
theorem C09_macro_off {env : Env} {args : List Meta} {s : Settings} {i i' : Item}
    {uses : List Path} (hs : rootSettings env args = .ok s) (hb : s.bindings.keys.Nodup)
    (h : hooqImpls env args i = .ok (uses, i')) {p : List Nat} {d : Data} {up : List Data}
    (hu : i.chain p = some (d :: up)) (ht : d.tag = .mac)
    (hm : (nearest (macrosOf env) (d :: up)).getD s.hookInMacros = false) :
    ∃ n n', i.tree.sub p = some n ∧ i'.tree.sub p = some n' ∧ n'.kids = n.kids := by
  have hm' : macrosAt env s (d :: up) = false := by rw [macrosAt, nearest_eq]; exact hm
  cases hr : reached env s (d :: up) with
  | false =>
    obtain ⟨n, upn, f1, f2⟩ := upFrom_sub hu
    exact ⟨n, n, f1, by rw [unreached_unchanged hs h hu hr, f1], rfl⟩
  | true =>
    obtain ⟨c', hw⟩ := expansion hs h
    obtain ⟨n, n', h1, h2, h3, h4, h5, h6, h7⟩ := node_at hb (agrees_new env s) hw hu hr
    exact ⟨n, n', h1, h2, h6 ht hm'⟩

/-! ## Examples -/

section
open Ex
set_option maxRecDepth 10000

/-- The environment of the sample is genuine. -/
theorem Ex.genuine : Genuine Ex.env := by
  intro m hm
  obtain rfl := Except.ok.inj hm
  exact ⟨[tkId "helpers"], ⟨true, true, true, true⟩,
    ⟨false, fun _ => none, fun _ => none, fun _ => none⟩, rfl, .inl rfl⟩

/-- `#[hooq::skip_all] { #[hooq::skip] { z?; } }`: the `z?` is hooked (C06, C07). -/
def Ex.nested : Item :=
  .fn [] { ident := "f", output := result, text := "fn f () -> Result" }
    [.expr (.mk [.path (hooqPath "skip_all")] (sp 2 1) (.block "" [
      .expr (.mk [.path (hooqPath "skip")] (sp 3 1) (.block "" [
        .expr (quest [] (var "z" 4) 4) true])) true])) true]

/-- The hypotheses of the C06 and C07 theorems hold for `z?` and `y?` of the sample. -/
example : ∃ l d rest, Ex.item.chain [2, 0, 0, 0, 0] = some (l ++ d :: rest) ∧ l ≠ [] ∧
    d.seen.any Meta.isSkipAll = true ∧
    ∀ e ∈ l, e.seen.any Meta.isSkip = true → e.seen.any Meta.isSkipAll = true :=
  ⟨[_], _, _, rfl, by simp, rfl, by simp [Data.seen]⟩

/-- The `y?` of the sample is skipped by its own attribute. -/
example : ∃ d rest, Ex.item.chain [1] = some ([] ++ d :: rest) ∧
    d.seen.any Meta.isSkip = true ∧ d.seen.any Meta.isSkipAll = false ∧ SameScope [] :=
  ⟨_, _, rfl, rfl, rfl, by simp [SameScope]⟩

/-- `#[hooq::skip] { { z?; } }`: a nested scope below a `skip`. -/
example : ∃ l d rest, Ex.nested.chain [0, 0, 0] = some (l ++ d :: rest) ∧
    d.seen.any Meta.isSkip = true ∧ d.seen.any Meta.isSkipAll = false ∧ NoSkip l ∧ ¬ SameScope l :=
  ⟨[_], _, _, rfl, rfl, rfl, by simp [NoSkip, Data.seen], by simp [SameScope, scopeEdge]⟩

/-- The second macro invocation of the sample: the switch is off. -/
example : ∃ d up, Ex.item.chain [4] = some (d :: up) ∧ d.tag = .mac ∧
    reached env settings (d :: up) = true ∧
    (nearest (macrosOf env) (d :: up)).getD settings.hookInMacros = false :=
  ⟨_, _, rfl, rfl, rfl, rfl⟩

/-- The nearest method at `h?` is the one on the `let`, with `$so_far` the preset. -/
example : ∃ d up, Ex.item.chain [0, 0, 0, 1] = some (d :: up) ∧
    nearest (methodOf env) (d :: up) = some (Method.parse false aMethod) ∧
    methodStack env settings (d :: up) = [Method.parse false aMethod, settings.method] :=
  ⟨_, _, rfl, rfl, rfl⟩

/-- Match arms keep inert attributes (C13 witness): `match x { #[hooq::skip] _ => y }`. -/
example : ∃ i' d up n', hooqImpls env [] (.fn [] { ident := "f", output := .none, text := "" }
      [.expr (.mk [] (sp 1 1) (.match_ (var "x" 1) [.mk [.path (hooqPath "skip")] "_" none (var "y" 1)]))
        true]) = .ok ([], i') ∧
    (Item.fn [] { ident := "f", output := .none, text := "" }
      [.expr (.mk [] (sp 1 1) (.match_ (var "x" 1) [.mk [.path (hooqPath "skip")] "_" none (var "y" 1)]))
        true]).chain [0, 1] = some (d :: up) ∧ reached env settings (d :: up) = true ∧
    i'.tree.sub [0, 1] = some n' ∧ n'.data.attrs = [.path (hooqPath "skip")] :=
  ⟨_, _, _, _, rfl, rfl, rfl, rfl, rfl⟩

/-- With the feature on, a method with trailing `!` consumes the `?` (C05). -/
example : ∃ i' n', hooqImpls { env with consume := true } []
      (.fn [.list (hooqPath "method") [tkP '.', tkId "a", tkParen [], tkP '!']]
        { ident := "f", output := .none, text := "" } [.expr (quest [] (var "x" 1) 1) true])
        = .ok ([], i') ∧
    i'.tree.sub [0] = some n' ∧ n'.data.tag = .question (sp 1 9) true :=
  ⟨_, _, rfl, rfl, rfl⟩

end

end Hooq
