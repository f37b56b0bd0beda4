import Verif.Props.Hook
import Verif.Props.Scope

/-!
# Exact laws where the wished-for ones fail (C56 - C58)
-/

namespace Hooq

/-! ## C56 -/

/-- A position is suppressed: some node on the way up has `skip_all`, or has `skip` and is
in the same scope, and no node nearer has either. -/
def Suppressed (up : List Data) : Prop :=
  ∃ l d rest, up = l ++ d :: rest ∧ NoSkip l ∧
    (d.seen.any Meta.isSkipAll = true ∨ d.seen.any Meta.isSkip = true ∧ SameScope l)

theorem suppressedFrom (left : Bool) (up : List Data) :
    skippedUp left up = true ↔ ∃ l d rest, up = l ++ d :: rest ∧ NoSkip l ∧
      (d.seen.any Meta.isSkipAll = true ∨
        d.seen.any Meta.isSkip = true ∧ left = false ∧ SameScope l) := by
  induction up generalizing left with
  | nil => simp [skippedUp]
  | cons d up ih =>
    rw [skippedUp]
    by_cases ha : d.seen.any Meta.isSkipAll = true
    · rw [if_pos ha]
      exact ⟨fun _ => ⟨[], d, up, rfl, by simp [NoSkip], Or.inl ha⟩, fun _ => rfl⟩
    · rw [if_neg ha]
      by_cases hs : d.seen.any Meta.isSkip = true
      · rw [if_pos hs]
        constructor
        · intro h
          exact ⟨[], d, up, rfl, by simp [NoSkip], Or.inr ⟨hs, by simpa using h, by simp [SameScope]⟩⟩
        · rintro ⟨l, e, rest, he, hn, hh⟩
          cases l with
          | nil =>
            simp only [List.nil_append, List.cons.injEq] at he
            obtain ⟨rfl, rfl⟩ := he
            rcases hh with hh | ⟨_, hh, _⟩
            · exact absurd hh ha
            · simp [hh]
          | cons x l =>
            simp only [List.cons_append, List.cons.injEq] at he
            obtain ⟨rfl, -⟩ := he
            exact absurd (hn d (by simp)).1 (by simp [hs])
      · rw [if_neg hs, ih]
        constructor
        · rintro ⟨l, e, rest, rfl, hn, hh⟩
          refine ⟨d :: l, e, rest, rfl, ?_, ?_⟩
          · intro x hx
            rcases List.mem_cons.1 hx with rfl | hx
            · exact ⟨by simpa using hs, by simpa using ha⟩
            · exact hn x hx
          · rcases hh with hh | ⟨h1, h2, h3⟩
            · exact Or.inl hh
            · simp only [Bool.or_eq_false_iff] at h2
              refine Or.inr ⟨h1, h2.1, ?_⟩
              intro x hx
              rcases List.mem_cons.1 hx with rfl | hx
              · exact h2.2
              · exact h3 x hx
        · rintro ⟨l, e, rest, he, hn, hh⟩
          cases l with
          | nil =>
            simp only [List.nil_append, List.cons.injEq] at he
            obtain ⟨rfl, rfl⟩ := he
            rcases hh with hh | ⟨hh, _⟩
            · exact absurd hh ha
            · exact absurd hh hs
          | cons x l =>
            simp only [List.cons_append, List.cons.injEq] at he
            obtain ⟨rfl, rfl⟩ := he
            refine ⟨l, e, rest, rfl, fun y hy => hn y (List.mem_cons_of_mem _ hy), ?_⟩
            rcases hh with hh | ⟨h1, h2, h3⟩
            · exact Or.inl hh
            · exact Or.inr ⟨h1, by rw [h2, h3 d (by simp)]; rfl,
                fun y hy => h3 y (List.mem_cons_of_mem _ hy)⟩

theorem skippedAt_iff (up : List Data) : skippedAt up = true ↔ Suppressed up := by
  rw [skippedAt, suppressedFrom]
  simp [Suppressed]

/-- C56 for `?`: a reached `?` gets a hook exactly if the hook targets in force contain
it and it is not suppressed. -/
theorem C56_question {env : Env} {args : List Meta} {s : Settings} {i i' : Item}
    {uses : List Path} (hs : rootSettings env args = .ok s) (hb : s.bindings.keys.Nodup)
    (h : hooqImpls env args i = .ok (uses, i')) {p : List Nat} {d : Data} {up : List Data}
    {q : Span} {b : Bool} (hu : i.chain p = some (d :: up)) (hq : d.tag = .question q b)
    (hr : reached env s (d :: up) = true) :
    ∃ n' k', i'.tree.sub p = some n' ∧ n'.kids = [k'] ∧
      (k'.marks ≠ [] ↔ (targetsAt env s (d :: up)).question = true ∧ ¬ Suppressed (d :: up)) := by
  have := C01_question_placement hs hb h hu hq
  rw [if_pos hr] at this
  obtain ⟨n', k', h1, h2, h3⟩ := this
  refine ⟨n', k', h1, h2, ?_⟩
  rw [← skippedAt_iff]
  split at h3
  · rename_i hc
    obtain ⟨hk, src, h4, -⟩ := h3
    simp only [Bool.and_eq_true, Bool.not_eq_eq_eq_not, Bool.not_true] at hc
    simp [h4, hc]
  · rename_i hc
    simp only [Bool.and_eq_true, Bool.not_eq_eq_eq_not, Bool.not_true, not_and] at hc
    simp only [h3, ne_eq, not_true_eq_false, false_iff, not_and, Bool.not_eq_true]
    intro h4 h5
    exact hc h5 h4

/-- C56 for `return`: the same, given that the value is wanted (C02). -/
theorem C56_return {env : Env} {args : List Meta} {s : Settings} {i i' : Item}
    {uses : List Path} (hs : rootSettings env args = .ok s) (hb : s.bindings.keys.Nodup)
    (h : hooqImpls env args i = .ok (uses, i')) {p : List Nat} {d : Data} {up : List Data}
    (hu : i.chain p = some (d :: up)) (hq : d.tag = .ret) (hr : reached env s (d :: up) = true) :
    ∃ n', i'.tree.sub p = some n' ∧ ∀ k' ∈ n'.kids, (k'.marks ≠ [] ↔
      (targetsAt env s (d :: up)).ret = true ∧ returnWanted env s (d :: up) k'.bare.callee = true ∧
        ¬ Suppressed (d :: up)) := by
  have := C02_return_placement hs hb h hu hq
  rw [if_pos hr] at this
  obtain ⟨n, n', h1, h2, _, h3⟩ := this
  refine ⟨n', h2, fun k' hk' => ?_⟩
  rcases h3 with ⟨_, h3⟩ | ⟨k, k2, _, h3, h4⟩
  · rw [h3] at hk'; simp at hk'
  · rw [h3, List.mem_singleton] at hk'; subst hk'
    rw [← skippedAt_iff]
    change if (!skippedAt (d :: up) && (targetsAt env s (d :: up)).ret &&
      returnWanted env s (d :: up) k'.bare.callee) = true then _ else _ at h4
    generalize returnWanted env s (d :: up) k'.bare.callee = w at h4 ⊢
    generalize skippedAt (d :: up) = sk at h4 ⊢
    generalize (targetsAt env s (d :: up)).ret = tr at h4 ⊢
    cases sk <;> cases tr <;> cases w <;> simp at h4 ⊢ <;> try exact h4
    obtain ⟨hk, ⟨src, h4⟩, _⟩ := h4
    simp [h4]

/-- C56 for tail expressions. -/
theorem C56_tail {env : Env} {args : List Meta} {s : Settings} {i i' : Item}
    {uses : List Path} (hs : rootSettings env args = .ok s) (hb : s.bindings.keys.Nodup)
    (h : hooqImpls env args i = .ok (uses, i')) {p : List Nat} {d : Data} {up : List Data}
    (hu : i.chain p = some (d :: up)) {tk : TailKind} (hq : d.edge.tail = some tk)
    (hm : d.mode ≠ .untouched) (hr : reached env s (d :: up) = true) :
    ∃ n', i'.tree.sub p = some n' ∧ (n'.tailMarks ≠ [] ↔
      (targetsAt env s (d :: up)).tail = true ∧ tailWanted env s (d :: up) tk n'.bare.callee = true ∧
        ¬ Suppressed (d :: up)) := by
  have := C03_tail_placement hs hb h hu
  rw [if_pos hr] at this
  obtain ⟨n', h2, h4⟩ := this
  refine ⟨n', h2, ?_⟩
  rw [← skippedAt_iff]
  simp only [hq] at h4
  change if d.mode ≠ .untouched ∧ (!skippedAt (d :: up) && (targetsAt env s (d :: up)).tail &&
      tailWanted env s (d :: up) tk n'.bare.callee) = true then _ else _ at h4
  generalize tailWanted env s (d :: up) tk n'.bare.callee = w at h4 ⊢
  generalize skippedAt (d :: up) = sk at h4 ⊢
  generalize (targetsAt env s (d :: up)).tail = tr at h4 ⊢
  cases sk <;> cases tr <;> cases w <;> simp [hm] at h4 ⊢ <;> try exact h4
  obtain ⟨hk, ⟨src, h4⟩, _⟩ := h4
  simp [h4]

/-! ## C57 -/

/-- The method in force can be expanded at a target: in its template every `$` that has a
follower in its group is followed by a name that stands for something there: a built-in
variable, `$so_far` if there is an overridden method that can itself be expanded, or a
binding. -/
def Expandable (bound : String → Prop) : List Method → Prop
  | [] => False
  | m :: rest => ¬ DollarThen (fun t => ¬ ∃ x sp, t = .ident x sp ∧
      ((∃ v, MetaVar.Named v x ∧ v ≠ .soFar) ∨ (MetaVar.Named .soFar x ∧ Expandable bound rest) ∨
        ((∀ v, ¬ MetaVar.Named v x) ∧ bound x))) m.template

mutual
theorem subst_total_tt {σ : String → List TT → Prop} : ∀ t : TT,
    (¬ DollarThen (fun t => ¬ ∃ x sp, t = .ident x sp ∧ ∃ o, σ x o) [t]) →
    ∀ d ts sp, t = .group d ts sp → ∃ out, Subst σ ts out
  | .group d ts sp, h, d', ts', sp', he => by
    cases he
    exact subst_total ts fun hd => h (.inside hd)
  | .ident _ _, _, _, _, _, he => by cases he
  | .punct _ _, _, _, _, _, he => by cases he
  | .lit _ _, _, _, _, _, he => by cases he
  | .exprHole _, _, _, _, _, he => by cases he
  | .sourceHole _, _, _, _, _, he => by cases he
  | .valueHole _ _, _, _, _, _, he => by cases he
  | .bindingsHole _ _, _, _, _, _, he => by cases he
  | .metaHole _ _, _, _, _, _, he => by cases he
theorem subst_total {σ : String → List TT → Prop} : ∀ ts : List TT,
    (¬ DollarThen (fun t => ¬ ∃ x sp, t = .ident x sp ∧ ∃ o, σ x o) ts) → ∃ out, Subst σ ts out
  | [], _ => ⟨_, .nil⟩
  | t :: ts, h => by
    have one : ¬ DollarThen (fun t => ¬ ∃ x sp, t = .ident x sp ∧ ∃ o, σ x o) [t] := by
      intro hd
      cases hd with
      | later hd => cases hd
      | inside hd => exact h (.inside hd)
    have g := subst_total_tt t one
    by_cases hp : ∃ sp, t = .punct '$' sp
    · obtain ⟨sp, rfl⟩ := hp
      match ts, h with
      | [], h => exact ⟨_, .lastDollar⟩
      | u :: us, h =>
        have hu : ∃ x sp, u = .ident x sp ∧ ∃ o, σ x o := by
          refine Classical.byContradiction fun hn => h (.here hn)
        obtain ⟨x, sp', rfl, o, ho⟩ := hu
        obtain ⟨out, hout⟩ := subst_total us fun hd => h (.later (.later hd))
        exact ⟨_, .var ho hout⟩
    · obtain ⟨out, hout⟩ := subst_total ts fun hd => h (.later hd)
      by_cases hg : ∃ d us sp, t = .group d us sp
      · obtain ⟨d, us, sp, rfl⟩ := hg
        obtain ⟨o, ho⟩ := g d us sp rfl
        exact ⟨_, .group ho hout⟩
      · exact ⟨_, .tok (fun sp he => hp ⟨sp, he⟩) (fun d us sp he => hg ⟨d, us, sp, he⟩) hout⟩
end

theorem subst_exists_iff {σ : String → List TT → Prop} (ts : List TT) :
    (∃ out, Subst σ ts out) ↔
      ¬ DollarThen (fun t => ¬ ∃ x sp, t = .ident x sp ∧ ∃ o, σ x o) ts := by
  refine ⟨?_, subst_total ts⟩
  rintro ⟨out, h⟩ hd
  obtain ⟨x, sp, o, hp, ho⟩ := h.dollarThen hd
  exact hp ⟨x, sp, rfl, o, ho⟩

theorem metaVarTokens_exists (r : RInfo) (soFar : Span → Except Err (List TT)) (x : String)
    (sp : Span) : (∃ o, metaVarTokens r soFar x sp = .ok o) ↔
      (∃ v, MetaVar.Named v x ∧ v ≠ .soFar) ∨ (MetaVar.Named .soFar x ∧ ∃ o, soFar sp = .ok o) ∨
        ((∀ v, ¬ MetaVar.Named v x) ∧ r.ctx.bindings.get? x ≠ none) := by
  simp only [← metaVar_named]
  cases h : MetaVar.ofString x with
  | none =>
    cases hb : r.ctx.bindings.get? x <;> simp [metaVarTokens, h, hb]
  | some v => cases v <;> simp [metaVarTokens, h]

theorem stack_exists {r : RInfo} {bound : String → Prop} (hb : ∀ x, r.ctx.bindings.get? x ≠ none ↔ bound x) :
    ∀ (l : List Method) (sp : Span), (∃ o, soFarOf r l sp = .ok o) ↔ Expandable bound l
  | [], _ => by simp [soFarOf, Expandable]
  | m :: rest, _ => by
    have ih := stack_exists hb rest .callSite
    simp only [soFarOf, Expandable]
    have h1 := expandList_iff' (r := r) (soFarOf_spanFree r rest) m.template
    rw [exists_congr h1, subst_exists_iff]
    simp only [metaVarTokens_exists, ih, hb]

/-- C57.  At a target the method in force expands exactly if in its template every `$`
with a follower is followed by a name that stands for something there. -/
theorem C57_expands_iff {env : Env} {s : Settings} {up : List Data} {r : RInfo}
    (ha : Agrees env s up r.ctx) :
    (∃ out, expandMethod r = .ok out) ↔
      Expandable (fun x => bindingAt env s x up ≠ none) (methodStack env s up) := by
  have hst : methodStack env s up = r.ctx.method.val :: r.ctx.method.anc := ha.method.symm
  rw [hst, ← stack_exists (r := r) (fun x => by rw [ha.bindings x]) _ .callSite]
  rfl

/-- C57.  A `$` at the end of a token sequence says nothing: with it the text is that
without it, unless it follows another `$`, which is then an error. -/
theorem C57_trailing (r : RInfo) {soFar : Span → Except Err (List TT)} (hso : SpanFree soFar) (ts : List TT) (sp : Span) (out : List TT) :
    expandList r soFar false (ts ++ [.punct '$' sp]) = .ok out ↔
      expandList r soFar false ts = .ok out ∧ ∀ sp', ts.getLast? ≠ some (.punct '$' sp') := by
  have h1 := expandList_iff' (r := r) hso
  rw [h1, h1]
  generalize (fun x o => metaVarTokens r soFar x .callSite = .ok o) = σ
  clear h1
  constructor
  · intro h
    generalize hz : ts ++ [TT.punct '$' sp] = z at h
    induction h generalizing ts with
    | nil => simp at hz
    | @var sp1 sp2 x o rest out ho hr ih =>
      match ts, hz with
      | [], hz => simp at hz
      | [a], hz => simp at hz
      | a :: b :: ts, hz =>
        simp only [List.cons_append, List.cons.injEq] at hz
        obtain ⟨rfl, rfl, hz⟩ := hz
        obtain ⟨i1, i2⟩ := ih _ hz
        refine ⟨.var ho i1, fun sp' => ?_⟩
        cases ts with
        | nil => simp
        | cons c ts => simpa using i2 sp'
    | @group d us us' rest out sp1 hu hr ihu ih =>
      cases ts with
      | nil => simp at hz
      | cons a ts =>
        simp only [List.cons_append, List.cons.injEq] at hz
        obtain ⟨rfl, hz⟩ := hz
        obtain ⟨i1, i2⟩ := ih _ hz
        refine ⟨.group hu i1, fun sp' => ?_⟩
        cases ts with
        | nil => simp
        | cons c ts => simpa using i2 sp'
    | @tok t rest out h1 h2 hr ih =>
      cases ts with
      | nil =>
        simp only [List.nil_append, List.cons.injEq] at hz
        exact absurd hz.1.symm (h1 _)
      | cons a ts =>
        simp only [List.cons_append, List.cons.injEq] at hz
        obtain ⟨rfl, hz⟩ := hz
        obtain ⟨i1, i2⟩ := ih _ hz
        refine ⟨.tok h1 h2 i1, fun sp' => ?_⟩
        cases ts with
        | nil => simpa using h1 sp'
        | cons c ts => simpa using i2 sp'
    | lastDollar =>
      cases ts with
      | nil => exact ⟨.nil, by simp⟩
      | cons a ts => simp at hz
  · rintro ⟨h, hl⟩
    induction h with
    | nil => exact .lastDollar
    | @var sp1 sp2 x o rest out ho hr ih =>
      refine .var ho (ih fun sp' => ?_)
      have := hl sp'
      cases rest with
      | nil => simp
      | cons c rest => simpa using this
    | @group d us us' rest out sp1 hu hr ihu ih =>
      refine .group hu (ih fun sp' => ?_)
      have := hl sp'
      cases rest with
      | nil => simp
      | cons c rest => simpa using this
    | @tok t rest out h1 h2 hr ih =>
      refine .tok h1 h2 (ih fun sp' => ?_)
      have := hl sp'
      cases rest with
      | nil => simp
      | cons c rest => simpa using this
    | lastDollar => exact absurd rfl (hl _)

theorem stackText_expandable {site : Site} : ∀ {l : List Method} {out : List TT}, StackText site l out →
    Expandable (fun x => site.binding x ≠ none) l
  | [], _, h => h.elim
  | m :: rest, out, h => by
    simp only [StackText] at h
    simp only [Expandable]
    intro hd
    obtain ⟨x, sp, o, hp, ho⟩ := h.dollarThen hd
    refine hp ⟨x, sp, rfl, ?_⟩
    cases ho with
    | soFar hn hs => exact Or.inr (Or.inl ⟨hn, stackText_expandable hs⟩)
    | binding hn hb => exact Or.inr (Or.inr ⟨hn, by simp [hb]⟩)
    | line hn | column hn | path hn | file hn | expr hn | source hn | count hn | fnName hn | fnSig hn
    | bindings hn | hooqMeta hn => exact Or.inl ⟨_, hn, by simp⟩

/-- C57, whole macro: every hook of the output was made from a method that is expandable
at its target. -/
theorem C57_hooks {env : Env} {args : List Meta} {s : Settings} {i i' : Item}
    {uses : List Path} (hs : rootSettings env args = .ok s) (hb : s.bindings.keys.Nodup)
    (h : hooqImpls env args i = .ok (uses, i')) {p : List Nat} {d : Data} {up : List Data}
    (hu : i.chain p = some (d :: up)) (hr : reached env s (d :: up) = true) :
    ∃ n', i'.tree.sub p = some n' ∧ ∀ m ∈ n'.marks,
      Expandable (fun x => bindingAt env s x (targetUp m.1.kind (d :: up)) ≠ none)
        (methodStack env s (targetUp m.1.kind (d :: up))) := by
  obtain ⟨n', h1, h2⟩ := hook_text hs hb h hu hr
  refine ⟨n', h1, fun m hm => ?_⟩
  obtain ⟨sp, c, out, _, rfl, h4, h5⟩ := h2 m hm
  have h4' : StackText (siteAt env s (targetUp m.1.kind (d :: up)) m.1.kind sp m.1.count)
      (methodStack env s (targetUp m.1.kind (d :: up))) out := by
    rw [methodStack_eq, StackText]; exact h4
  exact stackText_expandable h4'

/-! ## Witnesses -/

section
open Ex
set_option maxRecDepth 10000

/-- The full C06 and the full second half of C07 fail: `z?` in
`#[hooq::skip_all] { #[hooq::skip] { z?; } }` is hooked.  By C56 it is not suppressed: the
nearest node with a skip attribute has `skip`, and a scope was entered. -/
theorem C06_reenabled : ∃ i' d up n' m, hooqImpls env [] Ex.nested = .ok ([], i') ∧
    Ex.nested.chain [0, 0, 0, 0] = some (d :: up) ∧ reached env settings (d :: up) = true ∧
    (∃ l e rest, targetUp .question (d :: up) = l ++ e :: rest ∧ e.seen.any Meta.isSkipAll = true) ∧
    i'.tree.sub [0, 0, 0, 0] = some n' ∧ n'.marks = [m] ∧ m.1.kind = .question :=
  ⟨_, _, _, _, _, rfl, rfl, rfl, ⟨[_, _], _, [_], rfl, rfl⟩, rfl, rfl, rfl⟩

/-- The full C17 fails: in `fn f() -> Result { async { return x; } }` the value is not
returned from `f`, but the `return` is hooked because `f` returns a result. -/
theorem C17_async : ∃ i' n' m, hooqImpls env [] (.fn [] { ident := "f", output := result, text := "" }
      [.expr (.mk [] (sp 1 1) (.async [.expr (.mk [] (sp 1 9) (.ret (some (var "x" 1)))) true])) true])
        = .ok ([], i') ∧
    i'.tree.sub [0, 0, 0] = some n' ∧ n'.marks = [m] ∧ m.1.kind = .ret :=
  ⟨_, _, _, rfl, rfl, rfl, rfl⟩

/-- The full C24 fails: for every token sequence that expands and does not end in `$`, a
`$` at the end changes nothing and is not reported. -/
theorem C24_vanishes (r : RInfo) {soFar : Span → Except Err (List TT)} (hso : SpanFree soFar) {ts out : List TT} (sp : Span)
    (h : expandList r soFar false ts = .ok out) (hl : ∀ sp', ts.getLast? ≠ some (.punct '$' sp')) :
    expandList r soFar false (ts ++ [.punct '$' sp]) = .ok out :=
  (C57_trailing r hso ts sp out).2 ⟨h, hl⟩

/-- `a($line $)` and `a`, with `$` at the end of the group. -/
example : expandList (Ex.plain (.replace [] false)) (fun sp => .error (.noSoFar sp)) false
      [tkId "a", tkParen (tkVar "line" ++ [tkP '$'])] =
    .ok [tkId "a", .group .paren [.lit (.usize 1) .callSite] .callSite] ∧
    Expandable (fun _ => False) [.replace [tkId "a", tkParen (tkVar "line" ++ [tkP '$'])] false] := by
  have h : expandMethod (Ex.plain (.replace [tkId "a", tkParen (tkVar "line" ++ [tkP '$'])] false)) =
    .ok [tkId "a", .group .paren [.lit (.usize 1) .callSite] .callSite] := rfl
  refine ⟨rfl, (stack_exists (r := Ex.plain (.replace [tkId "a", tkParen (tkVar "line" ++ [tkP '$'])] false))
    (bound := fun _ => False) ?_ _ .callSite).1 ⟨_, h⟩⟩
  intro x
  simp only [ne_eq, iff_false, not_not]
  rfl

/-- `z?` of `Ex.nested` is not suppressed, that directly in the `skip_all` block is. -/
example : ∃ d up d' up', Ex.nested.chain [0, 0, 0] = some (d :: up) ∧ ¬ Suppressed (d :: up) ∧
    Ex.nested.chain [0] = some (d' :: up') ∧ Suppressed (d' :: up') := by
  refine ⟨_, _, _, _, rfl, ?_, rfl, ?_⟩ <;> rw [← skippedAt_iff]
  · decide
  · rfl

end

end Hooq
