import Verif.Props.RunHook
import Verif.Props.Watch

/-!
# What the built-in flavors leave as it was (C95)

C83 takes it as given that a call of `inspect_err` with a closure changes nothing.  Here
this is read from the tokens of the closure: it runs to its end, does one thing, and keeps
the result.  Attributes may set the level.
-/

namespace Hooq

/-- No attribute of the item sets the method, by itself or through a flavor. -/
def NoMethodSet (env : Env) (i : Item) : Prop :=
  ∀ p n, i.tree.sub p = some n → ∀ a ∈ n.data.seen, methodOf env a = none

/-- The hook stands behind its operand, leaves the `?`, and whatever the result is and
however errors are shown: it does one thing, with which the new result is related to the old
one by `K` (which gets how libraries put a text in front of an error), an `Ok` is not
reported, and an error `n` times. -/
def HookData.Acts (helpers : List TT) (n : Nat)
    (K : ∀ {Ty : Nat → Type}, (String → String → Dyn Ty → Dyn Ty) → Res Ty → Res Ty → Prop) (hk : HookData) : Prop :=
  hk.mode = .insert ∧ hk.exc = false ∧
  ∀ {Ty : Nat → Type} (W : World Ty) (sc : Scope Ty) (pretty line : String),
    W.excerpt "excerpted_pretty_stringify" = some pretty → W.excerpt "one_line_stringify" = some line →
    ∀ r, ∃ r' evs, (∀ x y, Does W helpers (Locals.ofScope sc) hk.toks r x y ↔ x = r' ∧ y = evs) ∧ K W.wrap r r' ∧
      ∀ v, (r = .ok v → r' = .ok v ∧ evs = []) ∧ (r = .err v → evs.length = n)

/-- The hook reports every error once and changes nothing. -/
def HookData.LooksOnly (helpers : List TT) (hk : HookData) : Prop := hk.Acts helpers 1 fun _ r r' => r' = r

/-- The hook puts a text in front of every error, reports nothing and changes nothing
else. -/
def HookData.WrapsOnly (helpers : List TT) (hk : HookData) : Prop :=
  hk.Acts helpers 0 fun wrap r r' => ∀ e, r = .err e → ∃ f s, r' = .err (wrap f s e)

theorem C95_mode {env : Env} {args : List Meta} {s : Settings} {i i' : Item}
    {uses : List Path} {helpers : List TT} {doc : PresetDoc} (hp : Builtin env args helpers doc)
    (he : doc.path.head? ≠ some "empty") (hs : rootSettings env args = .ok s)
    (h : hooqImpls env args i = .ok (uses, i')) {p : List Nat} {d : Data} {up : List Data}
    (hu : i.chain p = some (d :: up)) (hr : reached env s (d :: up) = true)
    (hm : ∀ e ∈ d :: up, ∀ a ∈ e.seen, methodOf env a = none) {n' : RTree} (hn : i'.tree.sub p = some n')
    {m : HookData × RTree} (hmk : m ∈ n'.marks) : m.1.mode = .insert ∧ m.1.exc = false := by
  obtain ⟨n2, k1, k2⟩ := C08_lexical_hooks hs (hp.nodup hs) h hu hr
  rw [hn] at k1
  obtain rfl := Option.some.inj k1
  obtain ⟨-, k3, k4, -⟩ := k2 m hmk
  have hno : nearest (methodOf env) (targetUp m.1.kind (d :: up)) = none := by
    rw [← nearest_eq]
    refine lastSet_none fun a ha => ?_
    obtain ⟨e, he, ha⟩ := mem_attrsOver ha
    refine hm e ?_ a ha
    cases hk : m.1.kind <;> rw [hk] at he
    · exact List.mem_of_mem_tail he
    · exact List.mem_of_mem_tail he
    · exact he
  obtain ⟨c, hc⟩ := hp.method hs
  obtain ⟨q1, q2⟩ := preset_mode c helpers he
  rw [hno] at k3 k4
  simp only [Option.getD_none, hc, q1, q2] at k3 k4
  exact ⟨k3, k4⟩

theorem NoMethodSet.plain {env : Env} {i : Item} (hi : NoMethodSet env i) {p : List Nat} {up : List Data}
    (hu : i.chain p = some up) : ∀ e ∈ up, ∀ a ∈ e.seen, methodOf env a = none := by
  intro d hd a ha
  rcases chain_mem hu hd with h | ⟨q, n, h1, rfl⟩
  · simp at h
  · exact hi q n h1 a ha

/-- C95.  Under `default`, `log` and `tracing` every hook of an expansion only looks. -/
theorem C95_looks {env : Env} {args : List Meta} {i i' : Item}
    {uses : List Path} {helpers : List TT} {doc : PresetDoc} (hp : Builtin env args helpers doc)
    (hh : ∀ t ∈ helpers, t.InPath) {x : String} (hx : doc.path.head? = some x)
    (hc : x ∈ ["default", "log", "tracing"]) (hi : NoMethodSet env i) (hsrc : i.IsSource)
    (h : hooqImpls env args i = .ok (uses, i')) {hk : HookData} (hk' : i'.Hooked hk) :
    hk.LooksOnly helpers := by
  obtain ⟨s, hs⟩ := rootSettings_of_ok h
  obtain ⟨p, d, up, n', m, hu, hr, hn, hm, rfl⟩ := hooked_reached hs (hp.nodup hs) hsrc h hk'
  simp only [List.mem_cons, List.not_mem_nil, or_false] at hc
  have he : doc.path.head? ≠ some "empty" := by
    rw [hx]
    rcases hc with rfl | rfl | rfl <;> simp
  obtain ⟨q1, q2⟩ := C95_mode hp he hs h hu hr (hi.plain hu) hn hm
  obtain ⟨n1, g1, g2⟩ := C94_reports hp hh hx (by rcases hc with rfl | rfl | rfl <;> simp) hs h hu hr (hi.plain hu)
  rw [hn] at g1
  obtain rfl := Option.some.inj g1
  obtain ⟨sp, -, hl, g3⟩ := g2 m hm
  refine ⟨q1, q2, fun {Ty} W sc pretty line hpr hli r => ?_⟩
  obtain ⟨x', hx', -, hx''⟩ := preset_head hp.row
  obtain rfl : x = x' := Option.some.inj (hx.symm.trans hx')
  refine ⟨_, _, fun r' evs => (g3 W sc hpr hli r r' evs).trans Prod.ext_iff, ?_, fun v => ⟨?_, ?_⟩⟩
  · cases r with
    | ok v => rfl
    | err e => rcases hc with rfl | rfl | rfl <;> simp [World.outcome, World.reports]
  · rintro rfl
    exact ⟨rfl, rfl⟩
  · rintro rfl
    have lev : x = "log" ∨ x = "tracing" → ∃ v, (nearest (bindingOf env "level") (targetUp m.1.kind (d :: up))).or
        (s.bindings.get? "level") = some v := by
      intro hx
      obtain ⟨l, hl'⟩ := hx'' hx
      obtain ⟨v, hv, -⟩ := hl l hl'
      exact ⟨v, hv⟩
    rcases hc with rfl | rfl | rfl
    · simp [World.outcome, World.reports]
    · obtain ⟨v, hv⟩ := lev (.inl rfl)
      simp [World.outcome, World.reports, hv]
    · obtain ⟨v, hv⟩ := lev (.inr rfl)
      simp [World.outcome, World.reports, hv]

/-- C95.  Under `anyhow`, `eyre` and `color_eyre` every hook of an expansion only puts a
text in front of errors. -/
theorem C95_wraps {env : Env} {args : List Meta} {i i' : Item}
    {uses : List Path} {helpers : List TT} {doc : PresetDoc} (hp : Builtin env args helpers doc)
    (hh : ∀ t ∈ helpers, t.InPath) {x : String} (hx : doc.path.head? = some x)
    (hc : x ∈ ["anyhow", "eyre", "color_eyre"]) (hi : NoMethodSet env i) (hsrc : i.IsSource)
    (h : hooqImpls env args i = .ok (uses, i')) {hk : HookData} (hk' : i'.Hooked hk) :
    hk.WrapsOnly helpers := by
  obtain ⟨s, hs⟩ := rootSettings_of_ok h
  obtain ⟨p, d, up, n', m, hu, hr, hn, hm, rfl⟩ := hooked_reached hs (hp.nodup hs) hsrc h hk'
  simp only [List.mem_cons, List.not_mem_nil, or_false] at hc
  have he : doc.path.head? ≠ some "empty" := by
    rw [hx]
    rcases hc with rfl | rfl | rfl <;> simp
  obtain ⟨q1, q2⟩ := C95_mode hp he hs h hu hr (hi.plain hu) hn hm
  obtain ⟨n1, g1, g2⟩ := C94_reports hp hh hx (by rcases hc with rfl | rfl | rfl <;> simp) hs h hu hr (hi.plain hu)
  rw [hn] at g1
  obtain rfl := Option.some.inj g1
  obtain ⟨sp, -, hl, g3⟩ := g2 m hm
  refine ⟨q1, q2, fun {Ty} W sc pretty line hpr hli r => ?_⟩
  refine ⟨_, _, fun r' evs => (g3 W sc hpr hli r r' evs).trans Prod.ext_iff, ?_, fun v => ⟨?_, ?_⟩⟩
  · rintro e rfl
    rcases hc with rfl | rfl | rfl <;> exact ⟨_, _, rfl⟩
  · rintro rfl
    exact ⟨rfl, rfl⟩
  · rintro rfl
    rcases hc with rfl | rfl | rfl <;> rfl

/-- C95.  Take any compositional semantics of the code and any relation `R` that all
constructs respect.  If `R` does not see hooks that only report errors and keep every
result, it relates the output under `default`, `log` and `tracing` to the input. -/
theorem C95_same {env : Env} {args : List Meta} {i i' : Item}
    {uses : List Path} {helpers : List TT} {doc : PresetDoc} (hp : Builtin env args helpers doc)
    (hh : ∀ t ∈ helpers, t.InPath) {x : String} (hx : doc.path.head? = some x)
    (hc : x ∈ ["default", "log", "tracing"]) (hi : NoMethodSet env i) (hsrc : i.IsSource)
    (h : hooqImpls env args i = .ok (uses, i')) {α : Type} {M : Meaning α}
    {R : α → α → Prop} (hM : Congruent M R)
    (hsil : ∀ hk : HookData, hk.LooksOnly helpers → Silent R (M.insert hk)) :
    R (M.of i') (M.of i) := by
  refine C69_simulation hsrc h hM fun hk hk' f hf a b hab => ?_
  have hl := C95_looks hp hh hx hc hi hsrc h hk'
  have hn : ¬ hk.consumes := by simp [HookData.consumes, hl.2.1]
  rw [if_neg hn, Meaning.hook, hl.1]
  exact hf _ _ (hsil hk hl a b hab)

/-- C95.  The same for `anyhow`, `eyre` and `color_eyre` and relations that do not see texts
in front of errors. -/
theorem C95_same_context {env : Env} {args : List Meta} {i i' : Item}
    {uses : List Path} {helpers : List TT} {doc : PresetDoc} (hp : Builtin env args helpers doc)
    (hh : ∀ t ∈ helpers, t.InPath) {x : String} (hx : doc.path.head? = some x)
    (hc : x ∈ ["anyhow", "eyre", "color_eyre"]) (hi : NoMethodSet env i) (hsrc : i.IsSource)
    (h : hooqImpls env args i = .ok (uses, i')) {α : Type} {M : Meaning α}
    {R : α → α → Prop} (hM : Congruent M R)
    (hsil : ∀ hk : HookData, hk.WrapsOnly helpers → Silent R (M.insert hk)) :
    R (M.of i') (M.of i) := by
  refine C69_simulation hsrc h hM fun hk hk' f hf a b hab => ?_
  have hl := C95_wraps hp hh hx hc hi hsrc h hk'
  have hn : ¬ hk.consumes := by simp [HookData.consumes, hl.2.1]
  rw [if_neg hn, Meaning.hook, hl.1]
  exact hf _ _ (hsil hk hl a b hab)

section
open Ex
set_option maxRecDepth 10000

theorem Ex.levelled_source : levelled.IsSource := fun p n hs => by
  have := allNodes_sub (t := levelled.tree) (f := fun n => !n.built) rfl hs
  simpa using this

theorem Ex.levelled_noMethod : NoMethodSet env levelled := fun p n hs a ha => by
  have := allNodes_sub (t := levelled.tree) (f := fun n => n.data.seen.all fun a => (methodOf env a).isNone) rfl hs
  simp only [List.all_eq_true, Option.isNone_iff_eq_none] at this
  exact this a ha

/-- `#[hooq(log::warn)]` on a function with `#[hooq::level = expr]`: every hook only looks,
and there is one. -/
example : ∃ i', hooqImpls env logArgs levelled = .ok ([], i') ∧ (∃ hk, i'.Hooked hk) ∧
    ∀ hk, i'.Hooked hk → hk.LooksOnly [tkId "helpers"] := by
  have hh : ∀ t ∈ [tkId "helpers"], t.InPath := by simp [TT.InPath, tkId]
  have key : ∀ i', hooqImpls env logArgs levelled = .ok ([], i') → ∀ hk, i'.Hooked hk → hk.LooksOnly [tkId "helpers"] :=
    fun i' h hk hk' => C95_looks (x := "log") logged_builtin hh rfl (by simp) levelled_noMethod levelled_source h hk'
  refine ⟨_, rfl, ?_, key _ rfl⟩
  exact ⟨_, [0, 0], _, rfl, _, List.mem_singleton.2 rfl, rfl⟩

/-- A hook that returns another result does not only look. -/
example : ¬ HookData.LooksOnly [] ⟨.question, .insert, [tkP '.', tkId "with_context",
    tkParen [tkP '|', tkP '|', tkBrace [tkId "format", tkP '!', tkParen [tkStr "x"]]]], false, default, .callSite, 1⟩ := by
  rintro ⟨-, -, h⟩
  obtain ⟨r', evs, h1, h2, -⟩ := h Ex.world (fun _ => none) _ _ rfl rfl (.err ⟨0, (5 : Nat)⟩)
  obtain rfl := h2
  have hd : Does Ex.world [] (Locals.ofScope fun _ => none) [tkP '.', tkId "with_context",
      tkParen [tkP '|', tkP '|', tkBrace [tkId "format", tkP '!', tkParen [tkStr "x"]]]] (.err ⟨0, (5 : Nat)⟩)
      (.err (Ex.world.wrap "with_context" "x" ⟨0, (5 : Nat)⟩)) [] :=
    .wrapErr (.inl rfl) (.value (.format (by decide)))
  have := ((h1 _ _).1 hd).1
  simp [Ex.world] at this

end

end Hooq
