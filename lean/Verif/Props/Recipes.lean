import Verif.Props.Run

/-!
# C103: the recipes that take the `?` away

/repo/docs/en/hooq-mdbook-en/src/recipe/unwrap.md and match.md, with the files `hooq.toml` of
/repo/mdbook-source-code/recipe-unwrap and recipe-match.
-/

namespace Hooq

/-- `.unwrap()!`, with arbitrary spans. -/
def unwrapMethod (σ : Nat → Span) : List TT :=
  [.punct '.' (σ 0), .ident "unwrap" (σ 1), .group .paren [] (σ 2), .punct '!' (σ 3)]

/-- `match $expr { Ok(val) => val, Err(err) => return Err(From::from(err)), }`, with arbitrary spans. -/
def matchBody (σ : Nat → Span) : List TT :=
  [.ident "match" (σ 0), .punct '$' (σ 1), .ident "expr" (σ 2), .group .brace
    [.ident "Ok" (σ 3), .group .paren [.ident "val" (σ 4)] (σ 5), .punct '=' (σ 6), .punct '>' (σ 7), .ident "val" (σ 8),
     .punct ',' (σ 9), .ident "Err" (σ 10), .group .paren [.ident "err" (σ 11)] (σ 12), .punct '=' (σ 13),
     .punct '>' (σ 14), .ident "return" (σ 15), .ident "Err" (σ 16), .group .paren
       [.ident "From" (σ 17), .punct ':' (σ 18), .punct ':' (σ 19),
        .ident "from" (σ 20), .group .paren [.ident "err" (σ 21)] (σ 22)]
       (σ 23), .punct ',' (σ 24)] (σ 25)]

/-- The same with the `!` behind. -/
def matchMethod (σ : Nat → Span) : List TT := matchBody σ ++ [.punct '!' (σ 26)]

/-- The text of the hooks of the recipe with `unwrap`. -/
def unwrapText : List TT := unspans [tkP '.', tkId "unwrap", tkParen []]

/-- The text of the hooks of the recipe with `match`. -/
def matchText : List TT := unspans
  [tkId "match", .exprHole .callSite, tkBrace
    [tkId "Ok", tkParen [tkId "val"], tkP '=', tkP '>', tkId "val", tkP ',', tkId "Err", tkParen [tkId "err"], tkP '=', tkP '>',
     tkId "return", tkId "Err", tkParen [tkId "From", tkP ':', tkP ':', tkId "from", tkParen [tkId "err"]], tkP ',']]

/-- No attribute of the item sets the method or the targets, by itself or through a flavor. -/
def Item.KeepsMethod (env : Env) (i : Item) : Prop :=
  ∀ p n, i.tree.sub p = some n → ∀ a ∈ n.data.seen, methodOf env a = none ∧ targetsOf env a = none

/-- Every hook is at a target, as the method says, and is read again. -/
theorem recipe_hook {env : Env} {args : List Meta} {s : Settings} {i i' : Item} {uses : List Path}
    (hs : rootSettings env args = .ok s) (hb : s.bindings.keys.Nodup) (hsrc : i.IsSource)
    (h : hooqImpls env args i = .ok (uses, i')) (hi : i.KeepsMethod env)
    {hk : HookData} (hk' : i'.Hooked hk) :
    s.targets.has hk.kind = true ∧ hk.mode = s.method.mode ∧ hk.exc = s.method.exc ∧
      (match hk.mode with
        | .insert => ∃ re, env.insertRear hk.toks = some re
        | .replace => ∃ rear, env.replaceShape rear hk.toks = some hk.shape) ∧
      ∃ sp out, ∃ site : Site, ∃ so : List TT → Prop, Subst (VarText site so) s.method.template out ∧
        hk.toks = s.method.lead ++ out.map (TT.setSpan sp) := by
  obtain ⟨p, d, up, n', m, hu, hr, hn, hm, rfl⟩ := hooked_reached hs hb hsrc h hk'
  obtain ⟨n2, k1, k2⟩ := C08_lexical_hooks hs hb h hu hr
  obtain ⟨n3, k5, k6⟩ := hook_text hs hb h hu hr
  obtain rfl := Option.some.inj (hn.symm.trans k1)
  obtain rfl := Option.some.inj (hn.symm.trans k5)
  obtain ⟨k3, k4, k7, _, _, -, kh⟩ := k2 m hm
  obtain ⟨sp, c, out, -, -, k8, k9⟩ := k6 m hm
  have hsub : ∀ e ∈ targetUp m.1.kind (d :: up), e ∈ d :: up := by
    intro e he
    cases hk : m.1.kind <;> rw [hk] at he
    · exact List.mem_of_mem_tail he
    · exact List.mem_of_mem_tail he
    · exact he
  have plain : ∀ a ∈ attrsOver (targetUp m.1.kind (d :: up)), methodOf env a = none ∧ targetsOf env a = none := by
    intro a ha
    obtain ⟨e, he, ha⟩ := mem_attrsOver ha
    rcases chain_mem hu (hsub e he) with h | ⟨q, n, h1, rfl⟩
    · simp at h
    · exact hi q n h1 a ha
  have e1 : nearest (methodOf env) (targetUp m.1.kind (d :: up)) = none := by
    rw [← nearest_eq]; exact lastSet_none fun a ha => (plain a ha).1
  have e2 : nearest (targetsOf env) (targetUp m.1.kind (d :: up)) = none := by
    rw [← nearest_eq]; exact lastSet_none fun a ha => (plain a ha).2
  have e3 : methodAt env s (targetUp m.1.kind (d :: up)) = s.method := by
    rw [methodAt, lastSet_none fun a ha => (plain a ha).1]; rfl
  rw [e1] at k4 k7
  rw [e2, Option.getD_none] at k3
  rw [e3] at k8 k9
  exact ⟨k3, k4, k7, kh.reads, sp, out, _, _, k8, k9⟩

/-- If `?` is the only target, that is where hooks are. -/
theorem Targets.only_question {k : Kind} (h : Targets.has ⟨true, false, false⟩ k = true) : k = .question := by
  cases k <;> simp [Targets.has] at h ⊢

/-- C103, the text.  With the method of the recipe and `?` as the only target every hook takes the `?` away and is the
call of `unwrap`. -/
theorem C103_unwrap_text {env : Env} {args : List Meta} {s : Settings} {i i' : Item} {uses : List Path}
    (hs : rootSettings env args = .ok s) (hb : s.bindings.keys.Nodup) (hsrc : i.IsSource)
    (h : hooqImpls env args i = .ok (uses, i')) (ht : s.targets = ⟨true, false, false⟩) {σ : Nat → Span}
    (hm : s.method = Method.parse true (unwrapMethod σ)) (hi : i.KeepsMethod env) {hk : HookData} (hk' : i'.Hooked hk) :
    hk.consumes ∧ hk.mode = .insert ∧ unspans hk.toks = unwrapText := by
  obtain ⟨h1, h2, h3, -, sp, out, site, so, h4, h5⟩ := recipe_hook hs hb hsrc h hi hk'
  replace h1 := Targets.only_question (ht ▸ h1)
  have e : s.method = .insert (σ 0) [.ident "unwrap" (σ 1), .group .paren [] (σ 2)] true := by rw [hm]; rfl
  rw [e] at h2 h3 h4 h5
  refine ⟨⟨h1, h3⟩, h2, ?_⟩
  have : out = [.ident "unwrap" (σ 1), .group .paren [] .callSite] :=
    h4.fillToks (P := fun _ => False) (g := fun _ => []) (by simp) (by simp [Method.template, ClosedAll, TT.Closed])
  subst this
  rw [h5]
  rfl

/-- C103, the text.  With the method of the recipe and `?` as the only target every hook takes the `?` away and is the
`match`. -/
theorem C103_match_text {env : Env} {args : List Meta} {s : Settings} {i i' : Item} {uses : List Path}
    (hs : rootSettings env args = .ok s) (hb : s.bindings.keys.Nodup) (hsrc : i.IsSource)
    (h : hooqImpls env args i = .ok (uses, i')) (ht : s.targets = ⟨true, false, false⟩) {σ : Nat → Span}
    (hm : s.method = Method.parse true (matchMethod σ)) (hi : i.KeepsMethod env) {hk : HookData} (hk' : i'.Hooked hk) :
    hk.consumes ∧ hk.mode = .replace ∧ unspans hk.toks = matchText := by
  obtain ⟨h1, h2, h3, -, sp, out, site, so, h4, h5⟩ := recipe_hook hs hb hsrc h hi hk'
  replace h1 := Targets.only_question (ht ▸ h1)
  have e : s.method = .replace (matchBody σ) true := by rw [hm]; rfl
  rw [e] at h2 h3 h4 h5
  refine ⟨⟨h1, h3⟩, h2, ?_⟩
  have := h4.fillToks (P := fun x => x = "expr") (g := fun _ => [.exprHole .callSite])
    (fun x o hx ho => by
      subst hx
      rwa [varText_named (v := .expr) ((metaVar_named _ _).1 rfl)] at ho)
    (by simp [Method.template, matchBody, ClosedAll, TT.Closed, TT.IsName])
  subst this
  rw [h5, Method.lead, List.nil_append, unspans_setSpan]
  rfl

/-- C103.  The recipe with `match` changes nothing: in every compositional semantics in which the `match` means what the
`?` means, the expanded item means what the item means. -/
theorem C103_match {env : Env} {args : List Meta} {s : Settings} {i i' : Item} {uses : List Path}
    (hs : rootSettings env args = .ok s) (hb : s.bindings.keys.Nodup) (hsrc : i.IsSource)
    (h : hooqImpls env args i = .ok (uses, i')) (ht : s.targets = ⟨true, false, false⟩) {σ : Nat → Span}
    (hm : s.method = Method.parse true (matchMethod σ)) (hi : i.KeepsMethod env) {α : Type} {M : Meaning α}
    (hM : ∀ hk, hk.consumes → unspans hk.toks = matchText →
      ∀ sp v, M.replace hk id v = M.node (questionLabel sp hk.span) [v]) :
    M.of i' = M.of i := by
  refine C69_same hsrc h fun hk hk' v => ?_
  obtain ⟨h1, h2, h3⟩ := C103_match_text hs hb hsrc h ht hm hi hk'
  rw [if_pos h1]
  intro sp
  rw [Meaning.hook, h2]
  exact hM hk h1 h3 sp v

/-- C103.  The recipe with `unwrap` changes nothing that a relation can see which does not tell the call of `unwrap` from
the `?`, for example one that only looks at runs in which nothing fails. -/
theorem C103_unwrap {env : Env} {args : List Meta} {s : Settings} {i i' : Item} {uses : List Path}
    (hs : rootSettings env args = .ok s) (hb : s.bindings.keys.Nodup) (hsrc : i.IsSource)
    (h : hooqImpls env args i = .ok (uses, i')) (ht : s.targets = ⟨true, false, false⟩) {σ : Nat → Span}
    (hm : s.method = Method.parse true (unwrapMethod σ)) (hi : i.KeepsMethod env) {α : Type} {M : Meaning α}
    {R : α → α → Prop} (hM : Congruent M R)
    (hR : ∀ hk : HookData, hk.consumes → unspans hk.toks = unwrapText →
      ∀ sp a b, R a b → R (M.insert hk a) (M.node (questionLabel sp hk.span) [b])) :
    R (M.of i') (M.of i) := by
  refine C69_simulation hsrc h hM fun hk hk' f hf a b hab => ?_
  obtain ⟨h1, h2, h3⟩ := C103_unwrap_text hs hb hsrc h ht hm hi hk'
  rw [if_pos h1]
  intro sp
  rw [Meaning.hook, h2]
  exact hf _ _ (hR hk h1 h3 sp a b hab)

/-! ## Without the feature -/

/-- The parser does not accept an expression with `!` behind it. -/
structure NoBangBehind (env : Env) : Prop where
  insert : ∀ ts sp, env.insertRear (ts ++ [.punct '!' sp]) = none
  replace : ∀ rear ts sp, env.replaceShape rear (ts ++ [.punct '!' sp]) = none

theorem getLast_split {α : Type} {l : List α} {a : α} (h : l.getLast? = some a) : ∃ l', l = l' ++ [a] :=
  ⟨l.dropLast, (List.dropLast_append_getLast? a h).symm⟩

theorem NoBangBehind.last_insert {env : Env} (he : NoBangBehind env) {l : List TT} {sp : Span}
    (h : l.getLast? = some (.punct '!' sp)) : env.insertRear l = none := by
  obtain ⟨l', rfl⟩ := getLast_split h
  exact he.insert l' sp

theorem NoBangBehind.last_replace {env : Env} (he : NoBangBehind env) {rear : Rear} {l : List TT} {sp : Span}
    (h : l.getLast? = some (.punct '!' sp)) : env.replaceShape rear l = none := by
  obtain ⟨l', rfl⟩ := getLast_split h
  exact he.replace rear l' sp

/-- C103, without the feature `consume-question`.  Then the `!` belongs to what is inserted.  Since no expression is
followed by `!`, an item in which there is a `?` to be hooked does not expand. -/
theorem C103_feature {env : Env} {args : List Meta} {s : Settings} {i : Item}
    (hs : rootSettings env args = .ok s) (hb : s.bindings.keys.Nodup) (hsrc : i.IsSource) {σ : Nat → Span}
    (hm : s.method = Method.parse false (unwrapMethod σ) ∨ s.method = Method.parse false (matchMethod σ))
    (hi : i.KeepsMethod env) (he : NoBangBehind env) {p : List Nat} {d : Data} {up : List Data} {q : Span} {b : Bool}
    (hu : i.chain p = some (d :: up)) (hq : d.tag = .question q b) (hr : reached env s (d :: up) = true)
    (hk : hookedAt env s (d :: up) .question = true) (r : List Path × Item) : hooqImpls env args i ≠ .ok r := by
  obtain ⟨uses, i'⟩ := r
  intro h
  have key := C01_question_placement hs hb h hu hq
  rw [if_pos hr] at key
  obtain ⟨n', k', h1, h2, h3⟩ := key
  have hk2 : (!skippedAt (d :: up) && (targetsAt env s (d :: up)).question) = true := by
    simpa [hookedAt, Targets.has] using hk
  rw [if_pos hk2] at h3
  obtain ⟨hk, src, h3, h4, -⟩ := h3
  have hh : i'.Hooked hk := ⟨p ++ [0], k', by rw [sub_append h1]; cases n'; simp_all [RTree.sub, RTree.kids],
    (hk, src), by simp [h3], rfl⟩
  obtain ⟨-, g1, -, g2, sp, out, site, so, g3, g4⟩ := recipe_hook hs hb hsrc h hi hh
  rcases hm with hm | hm
  · have e : s.method = .insert (σ 0) [.ident "unwrap" (σ 1), .group .paren [] (σ 2), .punct '!' (σ 3)] false := by rw [hm]; rfl
    rw [e] at g1 g3 g4
    have : out = [.ident "unwrap" (σ 1), .group .paren [] .callSite, .punct '!' (σ 3)] :=
      g3.fillToks (P := fun _ => False) (g := fun _ => []) (by simp) (by simp [Method.template, ClosedAll, TT.Closed])
    subst this
    rw [g1, g4] at g2
    obtain ⟨re, g2⟩ := g2
    rw [he.last_insert (sp := sp) rfl] at g2
    cases g2
  · have e : s.method = .replace (matchMethod σ) false := by rw [hm]; rfl
    rw [e] at g1 g3 g4
    have := g3.fillToks (P := fun x => x = "expr") (g := fun _ => [.exprHole .callSite])
      (fun x o hx ho => by
        subst hx
        rwa [varText_named (v := .expr) ((metaVar_named _ _).1 rfl)] at ho)
      (by simp [Method.template, matchMethod, matchBody, ClosedAll, TT.Closed, TT.IsName])
    subst this
    rw [g1, g4] at g2
    obtain ⟨rear, g2⟩ := g2
    rw [he.last_replace (sp := sp) rfl] at g2
    cases g2

/-! ## No `?` is left -/

/-- C103.  If the method of the settings takes the `?` away, and no attribute has a say, then no `?` is left in the
output, however deep. -/
theorem C103_none_left {env : Env} {args : List Meta} {s : Settings} {i i' : Item} {uses : List Path}
    (hs : rootSettings env args = .ok s) (hn : s.bindings.keys.Nodup) (h : hooqImpls env args i = .ok (uses, i'))
    (ht : s.targets.question = true) (hx : s.method.exc = true) (hm : s.hookInMacros = true) (hb : i.OnlyBinds env)
    (hl : i.NoneLeft) {p : List Nat} {n : RTree} (hp : i'.tree.sub p = some n) (q : Span) :
    n.data.tag ≠ .question q false := by
  obtain ⟨d, up, hu⟩ := chain_of_output hs hn h p n hp
  obtain ⟨n', h1, h2⟩ := C05_question_kept_at hs hn h hu
  obtain rfl := Option.some.inj (hp.symm.trans h1)
  have hk : i.KeepsTargets env := fun p n h a ha => (hb p n h a ha).toKeepsTargets
  rw [h2]
  cases hd : d.tag with
  | question q' b =>
    have hr := reached_quiet (s := s) (hk.up hu) hm (hl p d up hu (.inl ⟨q', b, hd⟩))
    have em : methodAt env s (d :: up) = s.method := by
      rw [methodAt, lastSet_none fun a ha => ?_]
      · rfl
      · obtain ⟨e, he, ha⟩ := mem_attrsOver ha
        rcases chain_mem hu he with h' | ⟨q, n, h1, rfl⟩
        · simp at h'
        · exact (hb q n h1 a ha).method
    simp [hr, hookedAt, skippedAt_quiet (hk.up hu), targetsAt_quiet (hk.up hu), Targets.has, ht, em, hx]
  | _ => simp

section
variable {Ty : Nat → Type} {S : Setting Ty} {helpers : List TT} (c : Dyn Ty → Dyn Ty → Prop)

theorem Setting.Hook.other_conv {hk : HookData} {v v' : Val Ty} {e : List (Report Ty)} (h : S.Hook helpers hk v v' e) :
    Setting.Hook { S with conv := c } helpers hk v v' e := by
  cases h with
  | res sc h1 h2 => exact .res sc h1 h2
  | other => exact .other
  | unknown h => exact .unknown h

theorem Setting.Hooks.other_conv {hks : List HookData} {o o' : Stop Ty} {e : List (Report Ty)} (h : S.Hooks helpers hks o o' e) :
    Setting.Hooks { S with conv := c } helpers hks o o' e := by
  induction h with
  | nil => exact .nil
  | cons h _ ih => exact .cons (h.other_conv c) ih
  | leave => exact .leave
  | jump => exact .jump

/-- No `?` is in the tree. -/
def RTree.NoQuestion (n : RTree) : Prop := ∀ p m, n.sub p = some m → ∀ q, m.data.tag ≠ .question q false

theorem RTree.NoQuestion.kid {n k : RTree} {j : Nat} (h : n.NoQuestion) (hk : n.kids[j]? = some k) : k.NoQuestion := by
  intro p m hm
  refine h (j :: p) m ?_
  obtain ⟨d, ms, ks⟩ := n
  simp only [RTree.kids] at hk
  simpa [RTree.sub, hk] using hm

theorem RTree.NoQuestion.self {n : RTree} (h : n.NoQuestion) (q : Span) : n.data.tag ≠ .question q false := by
  refine h [] n ?_ q
  cases n; rfl

theorem Setting.Runs.other_conv {n : RTree} {hks : List HookData} {o : Stop Ty} {e : List (Report Ty)}
    (h : S.Runs helpers n hks o e) : n.NoQuestion → Setting.Runs { S with conv := c } helpers n hks o e := by
  refine Setting.Runs.rec (S := S) (helpers := helpers)
    (motive_1 := fun n hks o e _ => n.NoQuestion → Setting.Runs { S with conv := c } helpers n hks o e)
    (motive_2 := fun n hks e _ => n.NoQuestion → Setting.Parts { S with conv := c } helpers n hks e)
    (motive_3 := fun n hks o e _ => n.NoQuestion → Setting.Inside { S with conv := c } helpers n hks o e)
    ?_ ?_ ?_ ?_ ?_ ?_ ?_ ?_ ?_ ?_ ?_ h
  · intro n hks o o' e1 e2 h1 _ h3 ih hn
    exact .closed h1 (ih hn) (h3.other_conv c)
  · intro n hks o e1 h1 _ ih hn
    exact .open_ h1 (ih hn)
  · intro n hks _
    exact .nil
  · intro n hks j k o e1 e2 _ h2 _ h4 ih1 ih2 hn
    exact .step (ih1 hn) h2 (ih2 (hn.kid h2)) h4
  · intro n hks v e1 e2 h1 _ h3 ih hn
    exact .gives h1 (ih hn) h3
  · intro n hks e1 _ ih hn
    exact .jump (ih hn)
  · intro n hks j k v e1 e2 _ h2 h3 _ ih1 ih2 hn
    exact .leave (ih1 hn) h2 h3 (ih2 (hn.kid h2))
  · intro n hks q j k e e' e1 e2 h1 _ _ _ _ _ _ hn
    exact absurd h1 (hn.self q)
  · intro n hks q e1 h1 _ _ hn
    exact absurd h1 (hn.self q)
  · intro n hks j k v e1 e2 h1 _ h3 _ ih1 ih2 hn
    exact .ret h1 (ih1 hn) h3 (ih2 (hn.kid h3))
  · intro n hks e1 h1 _ ih hn
    exact .retUnit h1 (ih hn)

theorem Setting.Parts.other_conv {n : RTree} {hks : List HookData} {e : List (Report Ty)}
    (h : S.Parts helpers n hks e) (hn : n.NoQuestion) : Setting.Parts { S with conv := c } helpers n hks e := by
  refine Setting.Parts.rec (S := S) (helpers := helpers) (motive_1 := fun _ _ _ _ _ => True)
    (motive_2 := fun n hks e _ => n.NoQuestion → Setting.Parts { S with conv := c } helpers n hks e)
    (motive_3 := fun _ _ _ _ _ => True) ?_ ?_ ?_ ?_ ?_ ?_ ?_ ?_ ?_ ?_ ?_ h hn
  case refine_3 => exact fun _ => .nil
  case refine_4 => exact fun _ h2 h3 h4 ih _ hn => .step (ih hn) h2 (h3.other_conv c (hn.kid h2)) h4
  all_goals intros; trivial

end

/-- C103.  Then it does not matter any more how `?` converts errors, since no error leaves a function by `?`: the
calls of the function give and report the same for every conversion, also for none. -/
theorem C103_no_conversion {env : Env} {args : List Meta} {s : Settings} {i i' : Item} {uses : List Path}
    (hs : rootSettings env args = .ok s) (hn : s.bindings.keys.Nodup) (h : hooqImpls env args i = .ok (uses, i'))
    (ht : s.targets.question = true) (hx : s.method.exc = true) (hm : s.hookInMacros = true) (hb : i.OnlyBinds env)
    (hl : i.NoneLeft) {p : List Nat} {f : RTree} (hp : i'.tree.sub p = some f)
    {Ty : Nat → Type} (S : Setting Ty) (helpers : List TT) (c : Dyn Ty → Dyn Ty → Prop)
    (v : Val Ty) (evs : List (Report Ty)) : S.Call helpers f v evs ↔ Setting.Call { S with conv := c } helpers f v evs := by
  have hf : f.NoQuestion := fun q m hq => C103_none_left hs hn h ht hx hm hb hl (p := p ++ q) (by rw [sub_append hp, hq])
  have one : ∀ (S : Setting Ty) c, S.Call helpers f v evs → Setting.Call { S with conv := c } helpers f v evs := by
    intro S c h
    cases h with
    | tail h1 h2 h3 h4 =>
      refine .tail (h1.other_conv c hf) h2 h3 (h4.other_conv c ?_)
      obtain ⟨j, hj⟩ := List.mem_iff_getElem?.1 (List.mem_of_getLast? h2)
      exact hf.kid hj
    | leave h1 h2 h3 =>
      refine .leave (h1.other_conv c hf) h2 (h3.other_conv c ?_)
      obtain ⟨j, hj⟩ := List.mem_iff_getElem?.1 h2
      exact hf.kid hj
    | unit h1 => exact .unit (h1.other_conv c hf)
  exact ⟨one S c, one { S with conv := c } S.conv⟩

section
open Ex
set_option maxRecDepth 10000

/-- The settings of the recipe with `unwrap`. -/
def Ex.unwrapSettings : Settings :=
  { defaultSettings true [] with
    targets := ⟨true, false, false⟩, method := Method.parse true (unwrapMethod fun _ => .callSite) }

/-- The settings of the recipe with `match`. -/
def Ex.matchSettings (targets : Targets) : Settings :=
  { defaultSettings true [] with targets := targets, method := Method.parse true (matchMethod fun _ => .callSite) }

/-- The flavors of the recipes; `targets` are the targets of the one with `match`. -/
def Ex.recipes (targets : Targets) : FlavorMap :=
  [("unwrap", .mk unwrapSettings []), ("my_match", .mk (matchSettings targets) [])]

/-- An environment with these flavors. -/
def Ex.recipeEnv (targets : Targets) : Env := { env with consume := true, store := .ok (recipes targets) }

/-- `fn f() -> Result { g()?; h() }`. -/
def Ex.twoCalls : Item :=
  .fn [] { ident := "f", output := result, text := "fn f () -> Result" }
    [.expr (quest [] (call "g" [] 2) 2) true, .expr (call "h" [] 3) false]

/-- `#[hooq(my_match)]`. -/
def Ex.matchArgs : List Meta := [.path (Path.ofIdents ["my_match"])]

/-- `#[hooq(unwrap)]`. -/
def Ex.unwrapArgs : List Meta := [.path (Path.ofIdents ["unwrap"])]

/-- C103, the recipe with `match` as it is written, without `hook_targets`, is no replacement of `?` only: at the end of a
function that returns a `Result` the value is replaced by its inside as well. -/
theorem C103_match_tail : ∃ i' n m, hooqImpls (recipeEnv ⟨true, true, true⟩) matchArgs twoCalls = .ok ([], i') ∧
    i'.tree.sub [1] = some n ∧ n.marks = [m] ∧ m.1.kind = .tail ∧ m.1.mode = .replace ∧ unspans m.1.toks = matchText :=
  ⟨_, _, _, rfl, rfl, rfl, rfl, rfl, rfl⟩

/-- The item is as it was written. -/
theorem Ex.twoCalls_source : twoCalls.IsSource := fun p n hs => by
  have := allNodes_sub (t := twoCalls.tree) (f := fun n => !n.built) rfl hs
  simpa using this

/-- It has no attributes of hooq. -/
theorem Ex.twoCalls_binds (targets : Targets) : twoCalls.OnlyBinds (recipeEnv targets) := fun p n hs a ha => by
  have := allNodes_sub (t := twoCalls.tree) (f := fun n => n.data.seen.isEmpty) rfl hs
  rw [List.isEmpty_iff.1 this] at ha
  exact absurd ha List.not_mem_nil

theorem Ex.twoCalls_keeps (targets : Targets) : twoCalls.KeepsMethod (recipeEnv targets) := fun p n hs a ha => by
  have := allNodes_sub (t := twoCalls.tree) (f := fun n => n.data.seen.isEmpty) rfl hs
  rw [List.isEmpty_iff.1 this] at ha
  exact absurd ha List.not_mem_nil

theorem Ex.twoCalls_left : twoCalls.NoneLeft := fun p d up hu _ e he => by
  rcases chain_mem hu he with h | ⟨q, n, h1, rfl⟩
  · simp at h
  · exact allNodes_sub (t := twoCalls.tree) (f := fun n => n.data.edge.visit) rfl h1

/-- A semantics which counts: every node adds one, and so does a hook that takes the `?` away. -/
def Ex.counting : Meaning Nat where
  node _ vs := 1 + vs.sum
  insert hk v := if hk.consumes then 1 + v else 100 * v
  replace hk f v := f (if hk.consumes then 1 + v else 100 * v)

example : ∃ s i', rootSettings (recipeEnv ⟨true, false, false⟩) matchArgs = .ok s ∧
    hooqImpls (recipeEnv ⟨true, false, false⟩) matchArgs twoCalls = .ok ([], i') ∧ counting.of i' = counting.of twoCalls ∧
    (∃ hk, i'.Hooked hk) := by
  refine ⟨_, _, rfl, rfl, ?_, ?_⟩
  · exact C103_match (env := recipeEnv ⟨true, false, false⟩) (args := matchArgs) (uses := [])
      (s := matchSettings _) (σ := fun _ => .callSite) rfl (by decide) twoCalls_source rfl rfl rfl
      (twoCalls_keeps _) fun hk h _ sp v => by
      simp [counting, h]
  · exact ⟨_, [0, 0], _, rfl, _, List.mem_singleton.2 rfl, rfl⟩

/-- A semantics in which things fail: of a node, if a part does, but not behind an `unwrap`, which ends everything. -/
def Ex.failing : Meaning (Option Nat) where
  node _ vs := vs.foldr (fun a b => a.bind fun x => b.map (x + ·)) (some 1)
  insert hk v := if hk.consumes then some ((v.map (· + 1)).getD 0) else none
  replace _ f v := f v

example : ∃ s i', rootSettings (recipeEnv ⟨true, false, false⟩) unwrapArgs = .ok s ∧
    hooqImpls (recipeEnv ⟨true, false, false⟩) unwrapArgs twoCalls = .ok ([], i') ∧
    ∀ v, failing.of twoCalls = some v → failing.of i' = some v := by
  refine ⟨_, _, rfl, rfl, ?_⟩
  refine C103_unwrap (env := recipeEnv ⟨true, false, false⟩) (args := unwrapArgs) (uses := [])
    (s := unwrapSettings) (R := fun a b => ∀ v, b = some v → a = some v) (σ := fun _ => .callSite)
    rfl (by decide) twoCalls_source rfl rfl rfl (twoCalls_keeps _) ?_ ?_
  · intro l as bs h
    simp only [failing]
    induction h with
    | nil => exact fun _ h => h
    | @cons a b as bs h _ ih =>
      intro v hv
      cases b with
      | none => simp at hv
      | some x =>
        obtain ⟨y, hy, rfl⟩ : ∃ y, List.foldr (fun a b => Option.bind a fun x => b.map (x + ·)) (some 1) bs = some y ∧
            x + y = v := by
          simpa using hv
        simp [h x rfl, ih y hy]
  · intro hk h _ sp a b hab v hv
    cases b with
    | none => simp [failing] at hv
    | some x =>
      simp only [failing, List.foldr_cons, List.foldr_nil, Option.bind_some, Option.map_some] at hv
      simp [failing, h, hab x rfl, ← hv]

/-- There is a `?` in the item and none in the output. -/
example : ∃ s i', rootSettings (recipeEnv ⟨true, false, false⟩) unwrapArgs = .ok s ∧
    hooqImpls (recipeEnv ⟨true, false, false⟩) unwrapArgs twoCalls = .ok ([], i') ∧
    (∃ p n q, twoCalls.tree.sub p = some n ∧ n.data.tag = .question q false) ∧
    ∀ p n q, i'.tree.sub p = some n → n.data.tag ≠ .question q false :=
  ⟨_, _, rfl, rfl, ⟨[0], _, _, rfl, rfl⟩, fun _ _ q hp =>
    C103_none_left (env := recipeEnv ⟨true, false, false⟩) (args := unwrapArgs) (uses := [])
      (s := unwrapSettings) rfl (by decide) rfl rfl rfl rfl (twoCalls_binds _) twoCalls_left hp q⟩

/-- The errors of the function are the same without any conversion. -/
example : ∃ i', hooqImpls (recipeEnv ⟨true, false, false⟩) unwrapArgs twoCalls = .ok ([], i') ∧
    ∀ v evs, setting.Call [] i'.tree v evs ↔ Setting.Call { setting with conv := fun _ _ => False } [] i'.tree v evs :=
  ⟨_, rfl, fun _ _ => C103_no_conversion (env := recipeEnv ⟨true, false, false⟩) (args := unwrapArgs) (uses := [])
    (s := unwrapSettings) rfl (by decide) rfl rfl rfl rfl (twoCalls_binds _) twoCalls_left (p := []) rfl _ _ _ _ _⟩

/-- Without the feature, with a parser that does not accept `!` behind expressions. -/
def Ex.plainEnv : Env :=
  { env with
    store := .ok [("unwrap", .mk { unwrapSettings with method := Method.parse false (unwrapMethod fun _ => .callSite) } [])]
    insertRear := fun ts => match ts.getLast? with | some (.punct '!' _) => none | _ => some .whole
    replaceShape := fun _ ts => match ts.getLast? with | some (.punct '!' _) => none | _ => some (.other .whole) }

example : ∀ r, hooqImpls plainEnv unwrapArgs twoCalls ≠ .ok r := by
  refine fun r => C103_feature (s := { unwrapSettings with method := Method.parse false (unwrapMethod fun _ => .callSite) })
    (σ := fun _ => .callSite) (p := [0]) (d := _) (up := _) (q := _) (b := false) rfl (by decide) twoCalls_source (.inl rfl) ?_
    ⟨fun ts sp => ?_, fun r ts sp => ?_⟩ rfl rfl rfl rfl r
  · intro p n hs a ha
    have := allNodes_sub (t := twoCalls.tree) (f := fun n => n.data.seen.isEmpty) rfl hs
    rw [List.isEmpty_iff.1 this] at ha
    exact absurd ha List.not_mem_nil
  · simp [plainEnv]
  · simp [plainEnv]

end

end Hooq
