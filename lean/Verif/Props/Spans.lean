import Verif.Spec.Spans
import Verif.Props.Hook

/-!
# The span of every token of a hook (C70)
-/

namespace Hooq

theorem tokensOf_append (a b : List TT) : tokensOf (a ++ b) = tokensOf a ++ tokensOf b := by
  induction a with
  | nil => rfl
  | cons t a ih => simp [tokensOf, ih]

theorem mem_tokensOf {t : TT} {ts : List TT} (h : t ∈ ts) : t ∈ tokensOf ts := by
  induction ts with
  | nil => simp at h
  | cons x ts ih =>
    rcases List.mem_cons.1 h with rfl | h
    · simp [tokensOf]
    · simp [tokensOf, ih h]

theorem below_mem {t u : TT} {ts : List TT} (h : t ∈ ts) (hu : u ∈ t.inside) : u ∈ tokensOf ts := by
  induction ts with
  | nil => simp at h
  | cons x ts ih =>
    rcases List.mem_cons.1 h with rfl | h
    · simp [tokensOf, hu]
    · simp [tokensOf, ih h]

theorem below_setSpan (sp : Span) (t : TT) : (t.setSpan sp).inside = t.inside := by cases t <;> rfl

/-- Tokens of the result of a substitution. -/
theorem subst_tokens {σ : String → List TT → Prop} {ts out : List TT} (h : Subst σ ts out) {P : TT → Prop}
    (hσ : ∀ x o, σ x o → ∀ u ∈ tokensOf o, P u) (hg : ∀ d ts, P (.group d ts .callSite))
    (ht : ∀ u ∈ tokensOf ts, ¬ u.IsGroup → P u) : ∀ u ∈ tokensOf out, P u := by
  induction h with
  | nil => simp [tokensOf]
  | var h1 _ ih =>
    intro u hu
    rw [tokensOf_append, List.mem_append] at hu
    rcases hu with hu | hu
    · exact hσ _ _ h1 u hu
    · exact ih (fun u hu => ht u (by simp [tokensOf, TT.inside, hu])) u hu
  | group _ _ ih1 ih2 =>
    intro u hu
    simp only [tokensOf, TT.inside, List.mem_cons, List.mem_append] at hu ht
    rcases hu with rfl | hu | hu
    · exact hg _ _
    · exact ih1 (fun u hu => ht u (.inr (.inl hu))) u hu
    · exact ih2 (fun u hu => ht u (.inr (.inr hu))) u hu
  | @tok t rest out h1 h2 _ ih =>
    intro u hu
    simp only [tokensOf, List.mem_cons, List.mem_append] at hu ht
    have hb : t.inside = [] := by
      cases t <;> first | rfl | exact absurd rfl (h2 _ _ _)
    rw [hb] at hu
    rcases hu with rfl | hu | hu
    · exact ht u (.inl rfl) fun ⟨d, ts, sp, e⟩ => h2 d ts sp e
    · simp at hu
    · exact ih (fun u hu => ht u (.inr (.inr hu))) u hu
  | lastDollar => simp [tokensOf]

theorem varText_tokens {v : Site} {soFar : List TT → Prop} {x : String} {o : List TT} (h : VarText v soFar x o)
    {P : TT → Prop} (hl : ∀ l, P (.lit l .callSite)) (hc : ∀ u : TT, u.IsSplice → P u)
    (hs : ∀ o, soFar o → ∀ u ∈ tokensOf o, P u) : ∀ u ∈ tokensOf o, P u := by
  cases h with
  | soFar _ h => exact hs _ h
  | _ =>
    intro u hu
    simp only [tokensOf, TT.inside, List.append_nil, List.mem_cons, List.not_mem_nil, or_false] at hu
    subst hu
    first | exact hl _ | exact hc _ trivial

theorem stack_tokens {v : Site} : ∀ {ms : List Method} {out : List TT}, StackText v ms out →
    ∀ u ∈ tokensOf out, MadeFrom ms u
  | [], _, h => h.elim
  | m :: rest, out, h => by
    refine subst_tokens h (fun x o hx => varText_tokens hx (fun l => .inr (.inl ⟨.inr ⟨_, _, rfl⟩, rfl⟩))
        (fun u hu => .inl hu) fun o ho u hu => ?_)
      (fun d ts => .inr (.inl ⟨.inl ⟨_, _, _, rfl⟩, rfl⟩)) fun u hu hg => .inr (.inr ⟨hg, m, by simp, hu⟩)
    rcases stack_tokens ho u hu with h | h | ⟨h, m', hm, hu⟩
    · exact .inl h
    · exact .inr (.inl h)
    · exact .inr (.inr ⟨h, m', by simp [hm], hu⟩)

/-- C70.  The span of every token of every hook.  At the top level it is the anchor of the
target, except for the `.` of an inserted method, which is the `.` that was written.
Inside groups, at any depth, a token is one that was written in one of the methods in
force there, with its own span, or a group or a literal made by the macro, with the span
of the macro call, or belongs to code that is spliced in. -/
theorem C70_spans {env : Env} {args : List Meta} {s : Settings} {i i' : Item}
    {uses : List Path} (hs : rootSettings env args = .ok s) (hb : s.bindings.keys.Nodup)
    (h : hooqImpls env args i = .ok (uses, i')) {p : List Nat} {d : Data} {up : List Data}
    (hu : i.chain p = some (d :: up)) (hr : reached env s (d :: up) = true) :
    ∃ n', i'.tree.sub p = some n' ∧ ∀ m ∈ n'.marks, ∃ sp, IsAnchor (d :: up) n' m.1.kind sp ∧
      (match methodAt env s (targetUp m.1.kind (d :: up)) with
        | .insert dot _ _ => ∃ rest, m.1.toks = .punct '.' dot :: rest ∧ ∀ t ∈ rest, t.span = sp
        | .replace _ _ => ∀ t ∈ m.1.toks, t.span = sp) ∧
      ∀ t ∈ m.1.toks, ∀ u ∈ t.inside, MadeFrom (methodStack env s (targetUp m.1.kind (d :: up))) u := by
  obtain ⟨n', h1, h2⟩ := C08_lexical_hooks hs hb h hu hr
  refine ⟨n', h1, fun m hm => ?_⟩
  obtain ⟨_, _, _, sp, c, h3, h4⟩ := h2 m hm
  obtain ⟨out, h5, h6⟩ := h4.toks
  have hsp : ∀ t ∈ out.map (TT.setSpan sp), t.span = sp := by
    intro t ht
    obtain ⟨t', _, rfl⟩ := List.mem_map.1 ht
    cases t' <;> rfl
  have hin : ∀ t ∈ out.map (TT.setSpan sp), ∀ u ∈ t.inside,
      MadeFrom (methodStack env s (targetUp m.1.kind (d :: up))) u := by
    intro t ht u hu
    obtain ⟨t', ht', rfl⟩ := List.mem_map.1 ht
    rw [below_setSpan] at hu
    exact stack_tokens h5 u (below_mem ht' hu)
  refine ⟨sp, h3, ?_, ?_⟩
  · rw [h6]
    cases methodAt env s (targetUp m.1.kind (d :: up)) with
    | insert dot _ _ => exact ⟨_, rfl, hsp⟩
    | replace _ _ => exact hsp
  · rw [h6]
    cases methodAt env s (targetUp m.1.kind (d :: up)) with
    | insert dot _ _ =>
      intro t ht
      rcases List.mem_cons.1 ht with rfl | ht
      · intro u hu; simp [TT.inside] at hu
      · exact hin t ht
    | replace _ _ => exact hin

theorem subst_regroup {σ : String → List TT → Prop} {ts out : List TT} (h : Subst σ ts out) (hn : NoDollars ts) :
    out = regroup ts := by
  induction h with
  | nil => rfl
  | var _ _ _ => exact absurd rfl hn.1
  | group _ _ ih1 ih2 =>
    have h1 := hn.1
    rw [TT.NoDollar] at h1
    rw [regroup, TT.regrouped, ih1 h1, ih2 hn.2]
  | @tok t rest out h1 h2 _ ih =>
    have ht : t.regrouped = t := by
      cases t <;> first | rfl | exact absurd rfl (h2 _ _ _)
    rw [regroup, ht, ih hn.2]
  | lastDollar => exact absurd rfl hn.1

/-- C70 for methods without `$`: the text of the hook is the text written, token by token
with the spans it was written with, but for the top level and the groups. -/
theorem C70_written {env : Env} {args : List Meta} {s : Settings} {i i' : Item}
    {uses : List Path} (hs : rootSettings env args = .ok s) (hb : s.bindings.keys.Nodup)
    (h : hooqImpls env args i = .ok (uses, i')) {p : List Nat} {d : Data} {up : List Data}
    (hu : i.chain p = some (d :: up)) (hr : reached env s (d :: up) = true) :
    ∃ n', i'.tree.sub p = some n' ∧ ∀ m ∈ n'.marks, ∃ sp, IsAnchor (d :: up) n' m.1.kind sp ∧
      (NoDollars (methodAt env s (targetUp m.1.kind (d :: up))).template →
        m.1.toks = (methodAt env s (targetUp m.1.kind (d :: up))).lead ++
          (regroup (methodAt env s (targetUp m.1.kind (d :: up))).template).map (TT.setSpan sp)) := by
  obtain ⟨n', h1, h2⟩ := hook_text hs hb h hu hr
  refine ⟨n', h1, fun m hm => ?_⟩
  obtain ⟨sp, c, out, h3, rfl, h4, h5⟩ := h2 m hm
  exact ⟨sp, h3, fun hn => by rw [h5, subst_regroup h4 hn]⟩

open Ex

/-- ```
fn f() -> Result {
    #[hooq::method(.a(b, $line))]
    x?;
}
```
The `b` is at column 23. -/
def Ex.spanned : Item :=
  .fn [] { ident := "f", output := result, text := "fn f () -> Result" }
    [.expr (quest [.list (hooqPath "method") [tkP '.', tkId "a",
      tkParen (.ident "b" (sp 2 23) :: tkP ',' :: tkVar "line")]] (var "x" 3) 3) true]

/-- The spans of the hook of `x?`: the group has that of the `?`, the `b` in it its own,
the line number in it that of the macro call. -/
example : ∃ d up i' n', Ex.spanned.chain [0, 0] = some (d :: up) ∧
    reached env settings (d :: up) = true ∧ hooqImpls env [] Ex.spanned = .ok ([], i') ∧
    i'.tree.sub [0, 0] = some n' ∧
    n'.marks.map (·.1.toks) = [[tkP '.', .ident "a" (sp 3 9),
      .group .paren [.ident "b" (sp 2 23), tkP ',', .lit (.usize 3) .callSite] (sp 3 9)]] :=
  ⟨_, _, _, _, rfl, rfl, rfl, rfl, rfl⟩

end Hooq
