import Verif.Props.Compare
import Verif.Props.Count

/-!
# The numbers of the hooks under two flavors (C107)
-/

namespace Hooq

theorem reached_same {env : Env} {s₁ s₂ : Settings} (h : s₁.hookInMacros = s₂.hookInMacros) (up : List Data) :
    reached env s₁ up = reached env s₂ up := by
  induction up with
  | nil => rfl
  | cons d up ih => rw [reached_cons, reached_cons, ih]; simp only [macrosAt, h]

/-- If the same targets take numbers, hooks at the same place have the same number. -/
theorem numbers_same {env : Env} {args₁ args₂ : List Meta} {s₁ s₂ : Settings} {i i₁ i₂ : Item}
    {uses₁ uses₂ : List Path} (hs₁ : rootSettings env args₁ = .ok s₁) (hs₂ : rootSettings env args₂ = .ok s₂)
    (hb₁ : s₁.bindings.keys.Nodup) (hb₂ : s₂.bindings.keys.Nodup)
    (h₁ : hooqImpls env args₁ i = .ok (uses₁, i₁)) (h₂ : hooqImpls env args₂ i = .ok (uses₂, i₂))
    (hi : i.IsSource) {p : List Nat} {k : Kind} {a b : Nat}
    (hn : numberedTargets env s₁ i i₁ k = numberedTargets env s₂ i i₂ k)
    (ha : i₁.Numbered p k a) (hb : i₂.Numbered p k b) : a = b := by
  obtain ⟨n₁, e₁, m₁, f₁, rfl, rfl⟩ := ha
  obtain ⟨n₂, e₂, m₂, f₂, hk, rfl⟩ := hb
  obtain ⟨d0, up0, hu⟩ := chain_of_output hs₁ hb₁ h₁ p n₁ e₁
  have r₁ := (HookOn.fact hs₁ hb₁ h₁ hi hu ⟨n₁, e₁, m₁, f₁, rfl⟩).1
  have r₂ := (HookOn.fact hs₂ hb₂ h₂ hi hu ⟨n₂, e₂, m₂, f₂, rfl⟩).1
  obtain ⟨q₁, a1, b1, c1⟩ := C11_hook_is_numbered hs₁ hb₁ h₁ hu r₁ e₁ f₁
  obtain ⟨q₂, a2, b2, c2⟩ := C11_hook_is_numbered hs₂ hb₂ h₂ hu r₂ e₂ f₂
  rw [hk] at a2 b2 c2
  have hq : q₁ = q₂ := by
    rw [c1] at c2
    cases hkk : m₁.1.kind <;> rw [hkk] at c2 <;> simpa using c2
  subst hq
  obtain ⟨j, f⟩ := List.mem_iff_getElem?.1 a1
  rw [C11_numbers hs₁ h₁ _ f _ b1, C11_numbers hs₂ h₂ _ (hn ▸ f) _ b2]

/-- C107 for `?`: the number of a `?` depends on no setting but the switch for macros: not on the methods and
bindings, nor on the names and types, nor on which kinds are hooked. -/
theorem C107_question {env : Env} {args₁ args₂ : List Meta} {s₁ s₂ : Settings} {i i₁ i₂ : Item}
    {uses₁ uses₂ : List Path} (hs₁ : rootSettings env args₁ = .ok s₁) (hs₂ : rootSettings env args₂ = .ok s₂)
    (hb₁ : s₁.bindings.keys.Nodup) (hb₂ : s₂.bindings.keys.Nodup)
    (h₁ : hooqImpls env args₁ i = .ok (uses₁, i₁)) (h₂ : hooqImpls env args₂ i = .ok (uses₂, i₂))
    (hi : i.IsSource) (hm : s₁.hookInMacros = s₂.hookInMacros) {p : List Nat} {a b : Nat}
    (ha : i₁.Numbered p .question a) (hb : i₂.Numbered p .question b) : a = b := by
  refine numbers_same hs₁ hs₂ hb₁ hb₂ h₁ h₂ hi ?_ ha hb
  refine List.filter_congr fun q _ => ?_
  unfold numbered
  cases hc : i.tree.upFrom [] q with
  | none => rfl
  | some l =>
    cases l with
    | nil => rfl
    | cons d up =>
      obtain ⟨x, hx, -⟩ := C05_question_kept_at hs₁ hb₁ h₁ hc
      obtain ⟨y, hy, -⟩ := C05_question_kept_at hs₂ hb₂ h₂ hc
      simp only [hx, hy, reached_same hm]

/-- C107: which kinds are hooked, the methods and the bindings do not decide the number of any hook, as long as no
`?` is taken away. -/
theorem C107_numbers {env : Env} {args₁ args₂ : List Meta} {s₁ s₂ : Settings} {i i₁ i₂ : Item}
    {uses₁ uses₂ : List Path} (hs₁ : rootSettings env args₁ = .ok s₁) (hs₂ : rootSettings env args₂ = .ok s₂)
    (hb₁ : s₁.bindings.keys.Nodup) (hb₂ : s₂.bindings.keys.Nodup)
    (h₁ : hooqImpls env args₁ i = .ok (uses₁, i₁)) (h₂ : hooqImpls env args₂ i = .ok (uses₂, i₂))
    (hi : i.IsSource) (hq₁ : i₁.QuestionsStay) (hq₂ : i₂.QuestionsStay)
    (hn : s₁.tailIdents = s₂.tailIdents) (hg : s₁.ignoreIdents = s₂.ignoreIdents)
    (hy : s₁.resultTypes = s₂.resultTypes) (hm : s₁.hookInMacros = s₂.hookInMacros)
    {p : List Nat} {k : Kind} {a b : Nat}
    (ha : i₁.Numbered p k a) (hb : i₂.Numbered p k b) : a = b := by
  refine numbers_same hs₁ hs₂ hb₁ hb₂ h₁ h₂ hi ?_ ha hb
  refine List.filter_congr fun q _ => ?_
  unfold numbered
  cases hc : i.tree.upFrom [] q with
  | none => rfl
  | some l =>
    cases l with
    | nil => rfl
    | cons d up =>
      obtain ⟨x, hx, -⟩ := C05_question_kept_at hs₁ hb₁ h₁ hc
      obtain ⟨y, hyy, -⟩ := C05_question_kept_at hs₂ hb₂ h₂ hc
      simp only [hx, hyy, reached_same hm]
      cases hr : reached env s₂ (d :: up) with
      | false => simp
      | true =>
        have hr₁ : reached env s₁ (d :: up) = true := (reached_same hm _).trans hr
        cases k with
        | question => rfl
        | tail =>
          have : x.bare.callee = y.bare.callee :=
            (callee_calls hs₁ hb₁ h₁ hq₁ hc hr₁ hx).trans (callee_calls hs₂ hb₂ h₂ hq₂ hc hr hyy).symm
          simp only [this, tailWanted, resultAt, tailIdentsAt, resultTypesAt, ignoreAt, hn, hg, hy]
        | ret =>
          by_cases ht : d.tag = .ret
          · obtain ⟨n, upn, g1, g2⟩ := upFrom_sub hc
            obtain ⟨rfl, rfl⟩ := List.cons.inj g2
            have w₁ := C02_return_placement hs₁ hb₁ h₁ hc ht
            have w₂ := C02_return_placement hs₂ hb₂ h₂ hc ht
            rw [if_pos hr₁] at w₁
            rw [if_pos hr] at w₂
            obtain ⟨n1, x', u1, u2, -, u3⟩ := w₁
            obtain ⟨n2, y', v1, v2, -, v3⟩ := w₂
            obtain rfl := Option.some.inj (hx.symm.trans u2)
            obtain rfl := Option.some.inj (hyy.symm.trans v2)
            obtain rfl := Option.some.inj (u1.symm.trans v1)
            obtain rfl := Option.some.inj (g1.symm.trans u1)
            rcases u3 with ⟨u3, u4⟩ | ⟨k0, kx, u3, u4, -⟩
            · rcases v3 with ⟨-, v4⟩ | ⟨k0, ky, v3, -, -⟩
              · simp only [u4, v4]
              · rw [u3] at v3; simp at v3
            · rcases v3 with ⟨v3, -⟩ | ⟨k0', ky, -, v4, -⟩
              · rw [u3] at v3; simp at v3
              · have hk : i.chain (q ++ [0]) = some (k0.data :: n.data :: up) := upFrom_kid hc g1 (by rw [u3]; rfl)
                have hwf := WF_sub (wfItem {} i) g1
                have he : k0.data.edge = {} := by
                  obtain ⟨dn, ms, ks⟩ := n
                  simp only [RTree.data_mk, RTree.kids_mk] at ht u3
                  subst u3
                  simp only [RTree.WF, nodeOk, ht] at hwf
                  simpa using hwf.1
                have rk : ∀ s, reached env s (n.data :: up) = true →
                    reached env s (k0.data :: n.data :: up) = true := by
                  intro s hs
                  rw [reached_cons, hs, he]
                  simp [ht]
                have sx : i₁.tree.sub (q ++ [0]) = some kx := by
                  rw [sub_append hx]
                  obtain ⟨dx, mx, _⟩ := x
                  rw [RTree.kids_mk] at u4
                  subst u4
                  obtain ⟨_, _, _⟩ := kx
                  rfl
                have sy : i₂.tree.sub (q ++ [0]) = some ky := by
                  rw [sub_append hyy]
                  obtain ⟨dx, mx, _⟩ := y
                  rw [RTree.kids_mk] at v4
                  subst v4
                  obtain ⟨_, _, _⟩ := ky
                  rfl
                have : kx.bare.callee = ky.bare.callee :=
                  (callee_calls hs₁ hb₁ h₁ hq₁ hk (rk _ hr₁) sx).trans
                    (callee_calls hs₂ hb₂ h₂ hq₂ hk (rk _ hr) sy).symm
                simp only [u4, v4, this, returnWanted, resultAt, tailIdentsAt, resultTypesAt, ignoreAt, hn, hg, hy]
          · have : (d.tag == .ret) = false := by simpa using ht
            simp only [this, Bool.false_and]

/-- C107: hooking further kinds keeps every hook and its number. -/
theorem C107_more {env : Env} {args₁ args₂ : List Meta} {s₁ s₂ : Settings} {i i₁ i₂ : Item}
    {uses₁ uses₂ : List Path} (hs₁ : rootSettings env args₁ = .ok s₁) (hs₂ : rootSettings env args₂ = .ok s₂)
    (hb₁ : s₁.bindings.keys.Nodup) (hb₂ : s₂.bindings.keys.Nodup)
    (h₁ : hooqImpls env args₁ i = .ok (uses₁, i₁)) (h₂ : hooqImpls env args₂ i = .ok (uses₂, i₂))
    (hi : i.IsSource) (hq₁ : i₁.QuestionsStay) (hq₂ : i₂.QuestionsStay)
    (ht : ∀ k, s₁.targets.has k = true → s₂.targets.has k = true)
    (hn : s₁.tailIdents = s₂.tailIdents) (hg : s₁.ignoreIdents = s₂.ignoreIdents)
    (hy : s₁.resultTypes = s₂.resultTypes) (hm : s₁.hookInMacros = s₂.hookInMacros)
    {p : List Nat} {k : Kind} {c : Nat} (hc : i₁.Numbered p k c) : i₂.Numbered p k c := by
  have ho : i₁.HookOn p k := by
    obtain ⟨n, h1, m, h2, h3, -⟩ := hc
    exact ⟨n, h1, m, h2, h3⟩
  obtain ⟨n, h1, m, h2, h3⟩ := C106_more hs₁ hs₂ hb₁ hb₂ h₁ h₂
    ⟨ht, by simp [hn], by simp [hg], by simp [hy], by simp [hm]⟩ hi hq₁ hq₂ ho
  have := C107_numbers hs₁ hs₂ hb₁ hb₂ h₁ h₂ hi hq₁ hq₂ hn hg hy hm hc ⟨n, h1, m, h2, h3, rfl⟩
  exact ⟨n, h1, m, h2, h3, this.symm⟩

/-- C107 without the feature `consume-question`: nothing has to be asked of the methods. -/
theorem C107_without {env : Env} {args₁ args₂ : List Meta} {s₁ s₂ : Settings} {i i₁ i₂ : Item}
    {uses₁ uses₂ : List Path} (hg : Genuine env) (hf : env.consume = false)
    (hs₁ : rootSettings env args₁ = .ok s₁) (hs₂ : rootSettings env args₂ = .ok s₂)
    (h₁ : hooqImpls env args₁ i = .ok (uses₁, i₁)) (h₂ : hooqImpls env args₂ i = .ok (uses₂, i₂))
    (hi : i.IsSource) (ht : ∀ k, s₁.targets.has k = true → s₂.targets.has k = true)
    (hn : s₁.tailIdents = s₂.tailIdents) (hl : s₁.ignoreIdents = s₂.ignoreIdents)
    (hy : s₁.resultTypes = s₂.resultTypes) (hm : s₁.hookInMacros = s₂.hookInMacros)
    {p : List Nat} {k : Kind} {c : Nat} (hc : i₁.Numbered p k c) : i₂.Numbered p k c :=
  C107_more hs₁ hs₂ (genuine_root hg hs₁).1 (genuine_root hg hs₂).1 h₁ h₂ hi (C106_feature hg hf h₁ hi)
    (C106_feature hg hf h₂ hi) ht hn hl hy hm hc

section
open Ex
set_option maxRecDepth 10000

/-- A further flavor `few`, which hooks only `?`, with another method. -/
def Ex.few : Settings :=
  { settings with targets := { question := true, ret := false, tail := false }, method := .replace (tkVar "expr") false }

/-- The sample environment with `few`. -/
def Ex.envFew : Env := { env with
  store := .ok (("few", .mk few []) :: presetFlavors false [tkId "helpers"] ⟨true, true, true, true⟩) }

/-- The sample under `few`. -/
def Ex.outFew : Item :=
  match hooqImpls envFew [.path (.ofIdents ["few"])] item with
  | .ok r => r.2
  | .error _ => item

/-- The sample under the default flavor, in the same environment. -/
def Ex.outAll : Item :=
  match hooqImpls envFew [] item with
  | .ok r => r.2
  | .error _ => item

/-- The hypotheses of C107_more are met by the sample under `few` and under the default flavor. -/
example : ∃ u₁ u₂, rootSettings envFew [.path (.ofIdents ["few"])] = .ok few ∧
    rootSettings envFew [] = .ok settings ∧ few.bindings.keys.Nodup ∧ settings.bindings.keys.Nodup ∧
    hooqImpls envFew [.path (.ofIdents ["few"])] item = .ok (u₁, outFew) ∧
    hooqImpls envFew [] item = .ok (u₂, outAll) ∧
    (∀ k, few.targets.has k = true → settings.targets.has k = true) ∧ few.tailIdents = settings.tailIdents ∧
    few.ignoreIdents = settings.ignoreIdents ∧ few.resultTypes = settings.resultTypes ∧
    few.hookInMacros = settings.hookInMacros :=
  ⟨_, _, rfl, rfl, by decide, by decide, rfl, rfl, by intro k; cases k <;> decide, rfl, rfl, rfl, rfl⟩

example : outFew.QuestionsStay := stay_of (by decide +kernel)

example : outAll.QuestionsStay := stay_of (by decide +kernel)

/-- Kinds and numbers of the hooks at some places under both. -/
example : ([[0, 0, 0], [3, 0, 0], [6, 0], [7]].map fun p => (outFew.tree.sub p).map fun n =>
      n.marks.map fun m => (m.1.kind, m.1.count)) =
      [some [(.question, 2)], some [(.question, 3)], some [], some []] ∧
    ([[0, 0, 0], [3, 0, 0], [6, 0], [7]].map fun p => (outAll.tree.sub p).map fun n =>
      n.marks.map fun m => (m.1.kind, m.1.count)) =
      [some [(.question, 2)], some [(.question, 3)], some [(.ret, 2)], some [(.tail, 1)]] := by
  decide +kernel

/-- The hypotheses of C107_without are met by the sample under the default flavor and under `anyhow`. -/
example : ∃ s₂ u₂, Genuine env ∧ env.consume = false ∧ rootSettings env [] = .ok settings ∧
    rootSettings env [.path (.ofIdents ["anyhow"])] = .ok s₂ ∧ hooqImpls env [] item = .ok ([], out) ∧
    hooqImpls env [.path (.ofIdents ["anyhow"])] item = .ok (u₂, outAnyhow) ∧
    (∀ k, settings.targets.has k = true → s₂.targets.has k = true) ∧ settings.tailIdents = s₂.tailIdents ∧
    settings.ignoreIdents = s₂.ignoreIdents ∧ settings.resultTypes = s₂.resultTypes ∧
    settings.hookInMacros = s₂.hookInMacros :=
  ⟨_, _, genuine, rfl, root_ok, rfl, out_ok, rfl, by intro k; cases k <;> decide, rfl, rfl, rfl, rfl⟩

/-- `fn f() -> Result { return Ok(x)?; return w; }` -/
def Ex.returnedTwice : Item :=
  .fn [] { ident := "f", output := result, text := "fn f () -> Result" }
    [.expr (.mk [] (sp 1 1) (.ret (some (quest [] (call "Ok" [var "x" 1] 1) 1)))) true,
     .expr (.mk [] (sp 2 1) (.ret (some (var "w" 2)))) true]

/-- Why C107_numbers asks that no `?` is taken away: under the flavor `mine` of C106 the first `return` has no hook,
and the second has its number. -/
example : (hooqImpls envMine [] returnedTwice).toOption.map (fun r =>
      (r.2.tree.sub [1, 0]).map fun n => n.marks.map fun m => (m.1.kind, m.1.count)) = some (some [(.ret, 2)]) ∧
    (hooqImpls envMine [.path (.ofIdents ["mine"])] returnedTwice).toOption.map (fun r =>
      (r.2.tree.sub [1, 0]).map fun n => n.marks.map fun m => (m.1.kind, m.1.count)) = some (some [(.ret, 1)]) := by
  decide +kernel

end

end Hooq
