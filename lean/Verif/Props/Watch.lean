import Verif.Props.Meaning
import Verif.Props.Presets
import Verif.Props.Second
import Verif.Props.Empty

/-!
# Which built-in flavors leave the behaviour as it was (C83)

C58 says how the hooks of the built-in flavors are spelled, C69 what follows if hooks
change nothing.  Together: if calls of `inspect_err` with a closure change nothing that
`R` can see, then `R` relates the output under `default`, `log` and `tracing` to the
input.
-/

namespace Hooq

/-! ## Where hooks are -/

/-- Every node of the output is at a position of the input. -/
theorem chain_of_output {env : Env} {args : List Meta} {s : Settings} {i i' : Item}
    {uses : List Path} (hs : rootSettings env args = .ok s) (hb : s.bindings.keys.Nodup)
    (h : hooqImpls env args i = .ok (uses, i')) (p : List Nat) :
    ∀ n', i'.tree.sub p = some n' → ∃ d up, i.chain p = some (d :: up) := by
  induction p using List.reverseRecOn with
  | nil =>
    intro n' _
    unfold Item.chain
    cases h0 : i.tree with
    | mk d ms ks => exact ⟨d, [], rfl⟩
  | append_singleton p j ih =>
    intro n' hn
    have hx : ∃ m', i'.tree.sub p = some m' ∧ m'.kids[j]? = some n' := by
      cases hm : i'.tree.sub p with
      | none =>
        have : ∀ (q : List Nat) (t : RTree), t.sub q = none → t.sub (q ++ [j]) = none := by
          intro q
          induction q with
          | nil => intro t ht; cases t; simp [RTree.sub] at ht
          | cons k q ihq =>
            rintro ⟨d, ms, ks⟩ ht
            simp only [List.cons_append, RTree.sub] at ht ⊢
            cases hk : ks[k]? with
            | none => rfl
            | some x => simp only [hk] at ht ⊢; exact ihq x ht
        rw [this p _ hm] at hn
        cases hn
      | some m' =>
        rw [sub_append hm] at hn
        obtain ⟨d, ms, ks⟩ := m'
        refine ⟨_, rfl, ?_⟩
        simp only [RTree.sub] at hn
        cases hk : ks[j]? with
        | none => simp [hk] at hn
        | some x =>
          obtain ⟨a, b, c⟩ := x
          simp only [hk] at hn
          simpa [hk] using hn
    obtain ⟨m', h1, h2⟩ := hx
    obtain ⟨d, up, hu⟩ := ih m' h1
    obtain ⟨n, upn, h3, h4⟩ := upFrom_sub hu
    have hlen : m'.kids.length = n.kids.length := by
      have he := (C60_effect hs hb h).2 p d up hu
      split at he
      · obtain ⟨n1, n2, g1, g2, -, g3⟩ := he
        rw [h3] at g1; rw [h1] at g2
        obtain rfl := Option.some.inj g1
        obtain rfl := Option.some.inj g2
        exact g3
      · rw [h1, h3] at he
        rw [Option.some.inj he]
    have hj : j < n.kids.length := by
      rw [← hlen]
      exact (List.getElem?_eq_some_iff.1 h2).1
    exact ⟨_, _, upFrom_kid hu h3 (List.getElem?_eq_getElem hj)⟩

/-- Every hook of the output is at a position that the expansion reaches. -/
theorem mark_reached {env : Env} {args : List Meta} {s : Settings} {i i' : Item}
    {uses : List Path} (hs : rootSettings env args = .ok s) (hb : s.bindings.keys.Nodup)
    (hsrc : i.IsSource) (h : hooqImpls env args i = .ok (uses, i')) {p : List Nat} {n' : RTree} (h1 : i'.tree.sub p = some n')
    {m : HookData × RTree} (hm : m ∈ n'.marks) : ∃ d up, i.chain p = some (d :: up) ∧ reached env s (d :: up) = true := by
  obtain ⟨d, up, hu⟩ := chain_of_output hs hb h p n' h1
  refine ⟨d, up, hu, ?_⟩
  by_contra hr
  rw [unreached_unchanged hs h hu (by simpa using hr)] at h1
  have := hsrc p n' h1
  obtain ⟨d', ms, ks⟩ := n'
  simp only [RTree.built, Bool.or_eq_false_iff, Bool.not_eq_false', List.isEmpty_iff] at this
  simp [RTree.marks, this.1] at hm

theorem hooked_reached {env : Env} {args : List Meta} {s : Settings} {i i' : Item}
    {uses : List Path} (hs : rootSettings env args = .ok s) (hb : s.bindings.keys.Nodup)
    (hsrc : i.IsSource) (h : hooqImpls env args i = .ok (uses, i')) {hk : HookData} (hh : i'.Hooked hk) :
    ∃ p d up n' m, i.chain p = some (d :: up) ∧ reached env s (d :: up) = true ∧
      i'.tree.sub p = some n' ∧ m ∈ n'.marks ∧ m.1 = hk := by
  obtain ⟨p, n', h1, m, hm, hmk⟩ := hh
  obtain ⟨d, up, hu, hr⟩ := mark_reached hs hb hsrc h h1 hm
  exact ⟨p, d, up, n', m, hu, hr, h1, hm, hmk⟩

/-! ## The calls -/

/-- `.NAME(PARAMS { .. })` behind the operand, and the `?` stays. -/
structure HookData.Calls (hk : HookData) (name : String) (params : List String) : Prop where
  mode : hk.mode = .insert
  exc : hk.exc = false
  words : ∃ body, wordsOf hk.toks = [".", name, "("] ++ params ++ ["{"] ++ body ++ ["}", ")"]

/-- What the built-in flavors call. -/
def flavorCalls : List (String × String × List String) :=
  [("default", "inspect_err", ["|", "e", "|"]),
   ("log", "inspect_err", ["|", "e", "|"]),
   ("tracing", "inspect_err", ["|", "e", "|"]),
   ("anyhow", "with_context", ["|", "|"]),
   ("eyre", "wrap_err_with", ["|", "|"]),
   ("color_eyre", "wrap_err_with", ["|", "|"]),
   ("hook", "hook", ["|", "|"])]

/-- No attribute of the item sets the method or the log level, by themselves or through a
flavor. -/
def NoMethodAttr (env : Env) (i : Item) : Prop :=
  ∀ p n, i.tree.sub p = some n → ∀ a ∈ n.data.seen, methodOf env a = none ∧ bindingOf env "level" a = none

theorem NoMethodAttr.plain {env : Env} {i : Item} (hi : NoMethodAttr env i) {p : List Nat} {up : List Data}
    (hu : i.chain p = some up) : PlainMethod env up := by
  intro d hd a ha
  rcases chain_mem hu hd with h | ⟨q, n, h1, rfl⟩
  · simp at h
  · exact hi q n h1 a ha

/-- The methods of the built-in flavors other than `empty` are inserted, and leave the `?`. -/
theorem preset_mode (c : Bool) (helpers : List TT) {q : List String} (hq : q.head? ≠ some "empty") :
    (Method.parse c (presetTokens helpers q)).mode = .insert ∧
      (Method.parse c (presetTokens helpers q)).exc = false := by
  unfold presetTokens
  rw [if_neg hq]
  split_ifs <;> cases c <;> exact ⟨rfl, rfl⟩

theorem doc_empty {doc : PresetDoc} (h : doc ∈ presetDocs) (he : doc.path ≠ ["empty"]) :
    doc.path.head? ≠ some "empty" := by
  simp only [presetDocs, List.mem_cons, List.not_mem_nil, or_false] at h
  rcases h with rfl | rfl | rfl | rfl | rfl | rfl | rfl | rfl | rfl | rfl | rfl | rfl | rfl | rfl | rfl | rfl | rfl | rfl <;>
    simp [logDoc, tracingDoc] at he ⊢

theorem doc_calls {doc : PresetDoc} (h : doc ∈ presetDocs) {x name : String} {params : List String}
    (hx : doc.path.head? = some x) (hc : (x, name, params) ∈ flavorCalls) (a : Spot) :
    ∃ body, doc.text a = [".", name, "("] ++ params ++ ["{"] ++ body ++ ["}", ")"] := by
  have lg : ∀ lv a, ∃ body, logText lv a =
      [".", "inspect_err", "("] ++ ["|", "e", "|"] ++ ["{"] ++ body ++ ["}", ")"] := fun lv a =>
    ⟨a.lets "excerpted_pretty_stringify" ++ ["let", "level", "="] ++ absWords lv ++
      [";", ":", ":", "log", ":", ":", "log", "!", "(", "level", ",",
       "\"({path}:{line}:{col}) {e}\n{expr}\"", ")", ";"], by simp [logText]⟩
  have tr : ∀ lv a, ∃ body, tracingText lv a =
      [".", "inspect_err", "("] ++ ["|", "e", "|"] ++ ["{"] ++ body ++ ["}", ")"] := fun lv a =>
    ⟨a.lets "one_line_stringify" ++ [":", ":", "tracing", ":", ":", "event", "!", "("] ++ absWords lv ++
      [",", "path", ",", "line", ",", "col", ",", "error", "=", "%", "e", ",", "expr", ",", ")", ";"],
      by simp [tracingText]⟩
  have ct : ∀ n a, ∃ body, contextText n a = [".", n, "("] ++ ["|", "|"] ++ ["{"] ++ body ++ ["}", ")"] := fun n a =>
    ⟨a.lets "excerpted_pretty_stringify" ++ ["format", "!", "(", "\"[{path}:{line}:{col}]\n{expr}\"", ")"],
      by simp [contextText]⟩
  have df : ∀ a : Spot, ∃ body, [".", "inspect_err", "(", "|", "e", "|", "{"] ++ a.lets "excerpted_pretty_stringify" ++
      [":", ":", "std", ":", ":", "eprintln", "!", "(",
       "\"[{path}:{line}:{col}] {e:?}\n{expr}\"", ")", ";", "}", ")"] =
      [".", "inspect_err", "("] ++ ["|", "e", "|"] ++ ["{"] ++ body ++ ["}", ")"] := fun a =>
    ⟨a.lets "excerpted_pretty_stringify" ++ [":", ":", "std", ":", ":", "eprintln", "!", "(",
       "\"[{path}:{line}:{col}] {e:?}\n{expr}\"", ")", ";"], by simp⟩
  simp only [presetDocs, List.mem_cons, List.not_mem_nil, or_false] at h
  rcases h with rfl | rfl | rfl | rfl | rfl | rfl | rfl | rfl | rfl | rfl | rfl | rfl | rfl | rfl | rfl | rfl | rfl | rfl <;>
    (simp only [logDoc, tracingDoc, List.head?_cons, Option.some.injEq] at hx
     subst hx
     simp [flavorCalls] at hc) <;>
    obtain ⟨rfl, rfl⟩ := hc
  · exact df a
  · exact ⟨["$hooq_meta"], rfl⟩
  all_goals first | exact lg _ a | exact tr _ a | exact ct _ a

/-- C83.  What the hooks of a built-in flavor are, if no attribute sets the method or the
log level: each is put behind its operand, leaves the `?` where it is, and is spelled as
documented for some position. -/
theorem C83_spelled {env : Env} {args : List Meta} {i i' : Item}
    {uses : List Path} {helpers : List TT} {doc : PresetDoc} (hp : Builtin env args helpers doc)
    (he : doc.path ≠ ["empty"]) (hi : NoMethodAttr env i) (hsrc : i.IsSource)
    (h : hooqImpls env args i = .ok (uses, i')) {hk : HookData} (hh : i'.Hooked hk) :
    hk.mode = .insert ∧ hk.exc = false ∧
      ∃ sp : Span, wordsOf hk.toks = doc.text ⟨sp.file, sp.line, sp.col, wordsOf helpers⟩ := by
  obtain ⟨s, hs⟩ := rootSettings_of_ok h
  obtain ⟨p, d, up, n', m, hu, hr, hn, hm, rfl⟩ := hooked_reached hs (hp.nodup hs) hsrc h hh
  obtain ⟨n1, g1, g2⟩ := C58_text hp hs h hu hr (hi.plain hu)
  rw [hn] at g1
  obtain rfl := Option.some.inj g1
  obtain ⟨sp, -, g3⟩ := g2 m hm
  obtain ⟨n2, k1, k2⟩ := C08_lexical_hooks hs (hp.nodup hs) h hu hr
  rw [hn] at k1
  obtain rfl := Option.some.inj k1
  obtain ⟨-, k3, k4, -⟩ := k2 m hm
  have hno : nearest (methodOf env) (targetUp m.1.kind (d :: up)) = none := by
    rw [← nearest_eq]
    refine lastSet_none fun a ha => ?_
    obtain ⟨e, he, ha⟩ := mem_attrsOver ha
    refine (hi.plain hu e ?_ a ha).1
    cases hk : m.1.kind <;> rw [hk] at he
    · exact List.mem_of_mem_tail he
    · exact List.mem_of_mem_tail he
    · exact he
  obtain ⟨c, hc⟩ := hp.method hs
  obtain ⟨q1, q2⟩ := preset_mode c helpers (doc_empty hp.row he)
  rw [hno] at k3 k4
  simp only [Option.getD_none, hc, q1, q2] at k3 k4
  exact ⟨k3, k4, sp, g3⟩

/-- C83, by flavor: each hook is one call of the method of the flavor with one closure. -/
theorem C83_calls {env : Env} {args : List Meta} {i i' : Item}
    {uses : List Path} {helpers : List TT} {doc : PresetDoc} (hp : Builtin env args helpers doc)
    {x name : String} {params : List String} (hx : doc.path.head? = some x)
    (hc : (x, name, params) ∈ flavorCalls) (hi : NoMethodAttr env i) (hsrc : i.IsSource)
    (h : hooqImpls env args i = .ok (uses, i')) {hk : HookData} (hh : i'.Hooked hk) :
    hk.Calls name params := by
  have he : doc.path ≠ ["empty"] := by
    intro he
    rw [he] at hx
    obtain rfl := Option.some.inj hx
    simp [flavorCalls] at hc
  obtain ⟨h1, h2, sp, h3⟩ := C83_spelled hp he hi hsrc h hh
  obtain ⟨body, h4⟩ := doc_calls hp.row hx hc ⟨sp.file, sp.line, sp.col, wordsOf helpers⟩
  exact ⟨h1, h2, body, h3.trans h4⟩

/-! ## The behaviour -/

/-- C83.  Take any compositional semantics of the code and any relation `R` that all
constructs respect.  If `R` cannot see the calls that the flavor makes, it relates the
output to the input. -/
theorem C83_simulation {env : Env} {args : List Meta} {i i' : Item}
    {uses : List Path} {helpers : List TT} {doc : PresetDoc} (hp : Builtin env args helpers doc)
    {x name : String} {params : List String} (hx : doc.path.head? = some x)
    (hc : (x, name, params) ∈ flavorCalls) (hi : NoMethodAttr env i) (hsrc : i.IsSource)
    (h : hooqImpls env args i = .ok (uses, i')) {α : Type} {M : Meaning α}
    {R : α → α → Prop} (hM : Congruent M R)
    (hsil : ∀ hk : HookData, hk.Calls name params → Silent R (M.insert hk)) :
    R (M.of i') (M.of i) := by
  refine C69_simulation hsrc h hM fun hk hh f hf a b hab => ?_
  have hcall := C83_calls hp hx hc hi hsrc h hh
  have hn : ¬ hk.consumes := by simp [HookData.consumes, hcall.exc]
  rw [if_neg hn, Meaning.hook, hcall.mode]
  exact hf _ _ (hsil hk hcall a b hab)

/-- C83, with equality, for the flavors that only look: if `x.inspect_err(|e| { .. })`
means what `x` means, the item means the same with the flavors `default`, `log` (all
levels) and `tracing` (all levels) as without. -/
theorem C83_looks {env : Env} {args : List Meta} {i i' : Item}
    {uses : List Path} {helpers : List TT} {doc : PresetDoc} (hp : Builtin env args helpers doc)
    {x : String} (hx : doc.path.head? = some x) (hc : x ∈ ["default", "log", "tracing"])
    (hi : NoMethodAttr env i) (hsrc : i.IsSource)
    (h : hooqImpls env args i = .ok (uses, i')) {α : Type} {M : Meaning α}
    (hsil : ∀ hk : HookData, hk.Calls "inspect_err" ["|", "e", "|"] → ∀ v, M.insert hk v = v) :
    M.of i' = M.of i := by
  refine C83_simulation (R := Eq) (x := x) (name := "inspect_err") (params := ["|", "e", "|"])
    hp hx ?_ hi hsrc h ?_ ?_
  · simp only [List.mem_cons, List.not_mem_nil, or_false] at hc
    rcases hc with rfl | rfl | rfl <;> simp [flavorCalls]
  · intro l as bs h
    rw [List.forall₂_eq_eq_eq] at h
    rw [h]
  · intro hk hcall a b hab
    rw [hsil hk hcall, hab]

/-- C83, the flavor `empty`: without attributes that set the hook targets the item means
the same in every semantics. -/
theorem C83_empty {env : Env} {args : List Meta} {i i' : Item}
    {uses : List Path} {helpers : List TT} {doc : PresetDoc} (hp : Builtin env args helpers doc)
    (he : doc.path = ["empty"]) (hi : NoTargetAttr env i) (hsrc : i.IsSource)
    (h : hooqImpls env args i = .ok (uses, i')) {α : Type} (M : Meaning α) : M.of i' = M.of i := by
  refine C69_same hsrc h fun hk hh => ?_
  exfalso
  obtain ⟨s, hs⟩ := rootSettings_of_ok h
  obtain ⟨p, d, up, n', m, hu, hr, hn, hm, rfl⟩ := hooked_reached hs (hp.nodup hs) hsrc h hh
  obtain ⟨n2, k1, k2⟩ := C08_lexical_hooks hs (hp.nodup hs) h hu hr
  rw [hn] at k1
  obtain rfl := Option.some.inj k1
  obtain ⟨k3, -⟩ := k2 m hm
  have hno : nearest (targetsOf env) (targetUp m.1.kind (d :: up)) = none := by
    rw [← nearest_eq]
    refine lastSet_none fun a ha => ?_
    obtain ⟨e, he, ha⟩ := mem_attrsOver ha
    have hm' : e ∈ d :: up := by
      cases hk : m.1.kind <;> rw [hk] at he
      · exact List.mem_of_mem_tail he
      · exact List.mem_of_mem_tail he
      · exact he
    rcases chain_mem hu hm' with h | ⟨q, n, h1, rfl⟩
    · simp at h
    · exact hi q n h1 a (seen_sub ha)
  obtain ⟨f, g1, ⟨e1, -⟩, -⟩ := hp.settings hs
  rw [hno, Option.getD_none, e1, g1.targets, if_pos he] at k3
  cases hk : m.1.kind <;> simp [hk, Targets.has] at k3

/-! ## An example -/

section
open Ex
set_option maxRecDepth 10000

/-- A semantics with a log: `inspect_err` writes to it, other hooks change the value. -/
def Ex.watching : Meaning (Nat × List String) where
  node _ vs := (1 + (vs.map Prod.fst).sum, (vs.map Prod.snd).flatten)
  insert hk v := if (wordsOf hk.toks).take 2 = [".", "inspect_err"] then (v.1, v.2 ++ ["seen"]) else (v.1 + 100, v.2)
  replace _ f v := f (v.1 + 1000, v.2)

/-- The hypotheses of `C83_simulation` can be met: `#[hooq(log::warn)]` on
`fn f() -> Result { m!(w?, 1); Ok(k) }` keeps the value and writes to the log. -/
example : logged.IsSource ∧ NoMethodAttr env logged ∧ ∃ o, hooqImpls env logArgs logged = .ok ([], o) ∧
    (watching.of o).1 = (watching.of logged).1 ∧
    (watching.of logged).2 = [] ∧ (watching.of o).2 = ["seen"] := by
  have hsrc : logged.IsSource := fun p n hs => by
    have := allNodes_sub (t := logged.tree) (f := fun n => !n.built) rfl hs
    simpa using this
  have hi : NoMethodAttr env logged := fun p n hs a ha => by
    have := allNodes_sub (t := logged.tree) (f := fun n => n.data.seen.isEmpty) rfl hs
    simp only [List.isEmpty_iff] at this
    simp [this] at ha
  have hv : ∀ o, hooqImpls env logArgs logged = .ok ([], o) → (watching.of o).1 = (watching.of logged).1 := by
    intro o h
    refine C83_simulation (R := sameValue) (name := "inspect_err") (params := ["|", "e", "|"])
      logged_builtin rfl (by simp [flavorCalls]) hi hsrc h ?_ ?_
    · intro l as bs h
      simp only [sameValue, watching, Nat.add_left_cancel_iff]
      induction h with
      | nil => rfl
      | cons h _ ih => simp only [List.map_cons, List.sum_cons, ih]; rw [h]
    · intro hk hc a b hab
      obtain ⟨body, hw⟩ := hc.words
      simp only [sameValue, watching, hw]
      simpa [sameValue] using hab
  exact ⟨hsrc, hi, _, rfl, hv _ rfl, rfl, rfl⟩

end

end Hooq
