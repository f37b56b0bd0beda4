import Verif.Proof.Unwrap
import Verif.Proof.Start

/-!
# What a hook says (C12, C16, C17, C21 - C28)
-/

namespace Hooq

/-! ## Meta variables by name -/

theorem named_unique {v v' : MetaVar} {x : String} (h : v.Named x) (h' : v'.Named x) : v = v' := by
  rw [← metaVar_named] at h h'
  rw [h] at h'
  exact Option.some.inj h'

/-- What each built-in variable stands for. -/
theorem varText_named {site : Site} {P : List TT → Prop} {v : MetaVar} {x : String}
    (h : v.Named x) (o : List TT) : VarText site P x o ↔
    match v with
    | .line => o = [.lit (.usize site.span.line) .callSite]
    | .column => o = [.lit (.usize site.span.col) .callSite]
    | .path => o = [.lit (.str site.span.file) .callSite]
    | .file => ∃ f, IsFileOf site.span.file f ∧ o = [.lit (.str f) .callSite]
    | .expr => o = [.exprHole .callSite]
    | .source => o = [.sourceHole .callSite]
    | .count => o = [.lit (.str (countSpec site.count site.kind)) .callSite]
    | .fnName => o = [.lit (.str site.fnName) .callSite]
    | .fnSig => o = [.lit (.str site.fnSig) .callSite]
    | .soFar => P o
    | .bindings => ∃ l, Listing site.binding l ∧ o = [.bindingsHole l .callSite]
    | .hooqMeta => ∃ l f, Listing site.binding l ∧ IsFileOf site.span.file f ∧
        o = [.metaHole { line := site.span.line, col := site.span.col, path := site.span.file,
                         file := f, count := countSpec site.count site.kind, bindings := l }
              .callSite] := by
  constructor
  · intro hv
    cases hv with
    | line g => obtain rfl := named_unique h g; rfl
    | column g => obtain rfl := named_unique h g; rfl
    | path g => obtain rfl := named_unique h g; rfl
    | file g g' => obtain rfl := named_unique h g; exact ⟨_, g', rfl⟩
    | expr g => obtain rfl := named_unique h g; rfl
    | source g => obtain rfl := named_unique h g; rfl
    | count g => obtain rfl := named_unique h g; rfl
    | fnName g => obtain rfl := named_unique h g; rfl
    | fnSig g => obtain rfl := named_unique h g; rfl
    | soFar g g' => obtain rfl := named_unique h g; exact g'
    | bindings g g' => obtain rfl := named_unique h g; exact ⟨_, g', rfl⟩
    | hooqMeta g g' g'' => obtain rfl := named_unique h g; exact ⟨_, _, g', g'', rfl⟩
    | binding g _ => exact absurd h (g v)
  · intro hv
    cases v with
    | line => subst hv; exact .line h
    | column => subst hv; exact .column h
    | path => subst hv; exact .path h
    | file => obtain ⟨f, g, rfl⟩ := hv; exact .file h g
    | expr => subst hv; exact .expr h
    | source => subst hv; exact .source h
    | count => subst hv; exact .count h
    | fnName => subst hv; exact .fnName h
    | fnSig => subst hv; exact .fnSig h
    | soFar => exact .soFar h hv
    | bindings => obtain ⟨l, g, rfl⟩ := hv; exact .bindings h g
    | hooqMeta => obtain ⟨l, f, g, g', rfl⟩ := hv; exact .hooqMeta h g g'

/-- What other variables stand for. -/
theorem varText_binding {site : Site} {P : List TT → Prop} {x : String}
    (h : ∀ v, ¬ MetaVar.Named v x) (o : List TT) :
    VarText site P x o ↔ ∃ b, site.binding x = some b ∧ o = [.valueHole b .callSite] := by
  constructor
  · intro hv
    cases hv with
    | line g | column g | path g | file g _ | expr g | source g | count g | fnName g | fnSig g
    | soFar g _ | bindings g _ | hooqMeta g _ _ => exact absurd g (h _)
    | binding _ g => exact ⟨_, g, rfl⟩
  · rintro ⟨b, g, rfl⟩
    exact .binding h g

theorem varText_unique {site : Site} {P : List TT → Prop} (hP : ∀ o o', P o → P o' → o = o')
    (x : String) (o o' : List TT) (h : VarText site P x o) (h' : VarText site P x o') : o = o' := by
  by_cases hx : ∃ v, MetaVar.Named v x
  · obtain ⟨v, hx⟩ := hx
    rw [varText_named hx] at h h'
    cases v with
    | line | column | path | expr | source | count | fnName | fnSig => rw [h, h']
    | file =>
      obtain ⟨f, g1, g2⟩ := h; obtain ⟨f', g1', g2'⟩ := h'
      rw [g2, g2', isFileOf_unique g1 g1']
    | soFar => exact hP _ _ h h'
    | bindings =>
      obtain ⟨f, g1, g2⟩ := h; obtain ⟨f', g1', g2'⟩ := h'
      rw [g2, g2', listing_unique g1 g1']
    | hooqMeta =>
      obtain ⟨l, f, g1, g2, g3⟩ := h; obtain ⟨l', f', g1', g2', g3'⟩ := h'
      rw [g3, g3', listing_unique g1 g1', isFileOf_unique g2 g2']
  · rw [varText_binding (fun v hv => hx ⟨v, hv⟩)] at h h'
    obtain ⟨b, g1, g2⟩ := h; obtain ⟨b', g1', g2'⟩ := h'
    rw [g1] at g1'
    rw [g2, g2', Option.some.inj g1']

theorem stackText_unique (site : Site) (l : List Method) :
    ∀ o o', StackText site l o → StackText site l o' → o = o' := by
  induction l with
  | nil => intro o o' h; simp [StackText] at h
  | cons m l ih => exact fun o o' h h' => Subst.unique (varText_unique ih) h h'

/-! ## C12 -/

/-- C12.  The text of `$count` is the decimal number, the suffix that its digits call
for, and the kind. -/
theorem C12_ordinal (n : Nat) (k : Kind) :
    countText n k = toString n ++ ordinalOf (Nat.digits 10 n) ++ " " ++
      (match k with | .question => "?" | .ret => "return" | .tail => "tail expr") :=
  countText_spec n k

/-- C12, output side: in every hook `$count` and `$nth` are that text for the number
of the target. -/
theorem C12_count_in_hooks {env : Env} {args : List Meta} {s : Settings} {i i' : Item}
    {uses : List Path} (hs : rootSettings env args = .ok s) (hb : s.bindings.keys.Nodup)
    (h : hooqImpls env args i = .ok (uses, i')) {p : List Nat} {d : Data} {up : List Data}
    (hu : i.chain p = some (d :: up)) (hr : reached env s (d :: up) = true) :
    ∃ n', i'.tree.sub p = some n' ∧ ∀ m ∈ n'.marks, ∃ σ sp out,
      let me := methodAt env s (targetUp m.1.kind (d :: up))
      Subst σ me.template out ∧ m.1.toks = me.lead ++ out.map (TT.setSpan sp) ∧
      ∀ x ∈ ["count", "nth"], ∀ o, σ x o ↔
        o = [.lit (.str (countSpec m.1.count m.1.kind)) .callSite] := by
  obtain ⟨n', h1, h2⟩ := hook_text hs hb h hu hr
  refine ⟨n', h1, fun m hm => ?_⟩
  obtain ⟨sp, c, out, _, rfl, h4, h5⟩ := h2 m hm
  refine ⟨_, sp, out, h4, h5, fun x hx o => ?_⟩
  have hn : MetaVar.Named .count x := ⟨["count", "nth"], by simp [metaVarNames], hx⟩
  exact varText_named hn o

/-! ## C16, C17 -/

/-- C16.  In every hook `$fn_name`/`$fn_sig` are the name and signature of the
innermost function around the target; for a closure the name is built from the nearest
enclosing fn. -/
theorem C16_fn_name {env : Env} {args : List Meta} {s : Settings} {i i' : Item}
    {uses : List Path} (hs : rootSettings env args = .ok s) (hb : s.bindings.keys.Nodup)
    (h : hooqImpls env args i = .ok (uses, i')) {p : List Nat} {d : Data} {up : List Data}
    (hu : i.chain p = some (d :: up)) (hr : reached env s (d :: up) = true) :
    ∃ n', i'.tree.sub p = some n' ∧ ∀ m ∈ n'.marks, ∃ σ sp out,
      let tup := targetUp m.1.kind (d :: up)
      let me := methodAt env s tup
      Subst σ me.template out ∧ m.1.toks = me.lead ++ out.map (TT.setSpan sp) ∧
      (∀ x ∈ ["fn_name", "fnname"], ∀ o, σ x o ↔
        o = [.lit (.str (match innermostFn tup with
          | none => "<unknown>"
          | some (.fn sig) => sig.ident
          | some (.closure _) => "__closure_in_" ++ (match enclosingFn tup with
              | some sig => sig.ident
              | none => "<unknown>") ++ "__")) .callSite]) ∧
      (∀ x ∈ ["fn_sig", "fnsig"], ∀ o, σ x o ↔
        o = [.lit (.str (match innermostFn tup with
          | none => "<unknown>"
          | some (.fn sig) => sig.text
          | some (.closure sig) => sig.text)) .callSite]) := by
  obtain ⟨n', h1, h2⟩ := hook_text hs hb h hu hr
  refine ⟨n', h1, fun m hm => ?_⟩
  obtain ⟨sp, c, out, _, rfl, h4, h5⟩ := h2 m hm
  refine ⟨_, sp, out, h4, h5, fun x hx o => ?_, fun x hx o => ?_⟩
  · have hn : MetaVar.Named .fnName x := ⟨["fn_name", "fnname"], by simp [metaVarNames], hx⟩
    exact varText_named hn o
  · have hn : MetaVar.Named .fnSig x := ⟨["fn_sig", "fnsig"], by simp [metaVarNames], hx⟩
    exact varText_named hn o

theorem resultAt_iff {env : Env} {s : Settings} {up : List Data} {f : FnEntry}
    (hf : innermostFn up = some f) :
    resultAt env s up = true ↔ f.output.EndsIn (resultTypesAt env s up) := by
  have : outputAt up = f.output := by cases f <;> simp [outputAt, hf, FnEntry.output]
  rw [resultAt, this, RetType.EndsIn]
  cases f.output with
  | none => simp
  | other t => simp
  | path p =>
    simp only [endsIn, RetType.path.injEq]
    cases hg : p.segs.getLast? with
    | none => simp [hg]
    | some g => simp [hg]

/-- C17, for `return`.  For a visited, enabled `return` whose value is no call of a
tail or ignore ident, the hook is there exactly when the declared return type of the
innermost function or closure is a result type, whatever the functions further out
return.  Partial: async blocks do not count as functions here, see `C17_async` in Props.Exact. -/
theorem C17_return_type_partial {env : Env} {args : List Meta} {s : Settings} {i i' : Item}
    {uses : List Path} (hs : rootSettings env args = .ok s) (hb : s.bindings.keys.Nodup)
    (h : hooqImpls env args i = .ok (uses, i')) {p : List Nat} {d : Data} {up : List Data}
    (hu : i.chain p = some (d :: up)) (hr : reached env s (d :: up) = true) (hq : d.tag = .ret)
    (he : hookedAt env s (d :: up) .ret = true) {f : FnEntry}
    (hf : innermostFn (d :: up) = some f) :
    ∃ n', i'.tree.sub p = some n' ∧ ∀ k' ∈ n'.kids,
      endsIn k'.bare.callee (tailIdentsAt env s (d :: up)) = false →
      endsIn k'.bare.callee (ignoreAt env s (d :: up)) = false →
      (k'.marks ≠ [] ↔ f.output.EndsIn (resultTypesAt env s (d :: up))) := by
  have hp := C02_return_placement hs hb h hu hq
  rw [if_pos hr] at hp
  obtain ⟨n, n', h1, h2, h3, h4⟩ := hp
  refine ⟨n', h2, fun k' hk' ht hi => ?_⟩
  rcases h4 with ⟨_, h4⟩ | ⟨k, k2, _, h4, h5⟩
  · rw [h4] at hk'; simp at hk'
  · rw [h4, List.mem_singleton] at hk'; subst hk'
    rw [← resultAt_iff hf]
    rw [hookedAt] at he
    have he' : (!skippedAt (d :: up) && (targetsAt env s (d :: up)).ret) = true := he
    rw [he', ht, hi] at h5
    cases hres : resultAt env s (d :: up) with
    | true => simp [hres] at h5; obtain ⟨hk, ⟨src, h5⟩, _⟩ := h5; simp [h5]
    | false => simp [hres] at h5; simp [h5]

/-- C17, for tail expressions of fn and closure bodies.  Partial in the same way. -/
theorem C17_tail_type_partial {env : Env} {args : List Meta} {s : Settings} {i i' : Item}
    {uses : List Path} (hs : rootSettings env args = .ok s) (hb : s.bindings.keys.Nodup)
    (h : hooqImpls env args i = .ok (uses, i')) {p : List Nat} {d : Data} {up : List Data}
    (hu : i.chain p = some (d :: up)) (hr : reached env s (d :: up) = true)
    (hq : d.edge.tail = some .fnTail) (hm : d.mode ≠ .untouched)
    (he : hookedAt env s (d :: up) .tail = true) {f : FnEntry}
    (hf : innermostFn (d :: up) = some f) :
    ∃ n', i'.tree.sub p = some n' ∧
      (endsIn n'.bare.callee (tailIdentsAt env s (d :: up)) = false →
       endsIn n'.bare.callee (ignoreAt env s (d :: up)) = false →
       (n'.tailMarks ≠ [] ↔ f.output.EndsIn (resultTypesAt env s (d :: up)))) := by
  have hp := C03_tail_placement hs hb h hu
  rw [if_pos hr] at hp
  obtain ⟨n', h2, h3⟩ := hp
  refine ⟨n', h2, fun ht hi => ?_⟩
  rw [← resultAt_iff hf]
  simp only [hq] at h3
  rw [hookedAt] at he
  have he' : (!skippedAt (d :: up) && (targetsAt env s (d :: up)).tail) = true := he
  rw [he', ht, hi] at h3
  cases hres : resultAt env s (d :: up) with
  | true =>
    simp [hres, hm] at h3
    obtain ⟨hk, ⟨src, h5⟩, _⟩ := h3
    simp [h5]
  | false => simp [hres] at h3; simp [h3]

/-! ## C21 -/

/-- C21.  A method whose template contains no `$` always expands, to the same text. -/
theorem C21_verbatim_expansion (r : RInfo) (hn : NoDollars r.ctx.method.val.template) :
    ∃ out, expandMethod r = .ok out ∧ unspans out = unspans r.ctx.method.val.template := by
  have key := expandList_iff' (r := r) (soFarOf_spanFree r r.ctx.method.anc)
  obtain ⟨out, ho⟩ := subst_exists
    (fun x o => metaVarTokens r (soFarOf r r.ctx.method.anc) x .callSite = .ok o) _ hn
  exact ⟨out, (key _ _).2 ho, ho.noDollar hn⟩

/-- C21, output side: the inserted text is the text of the method, with the leading
`.` if there is one. -/
theorem C21_verbatim {env : Env} {args : List Meta} {s : Settings} {i i' : Item}
    {uses : List Path} (hs : rootSettings env args = .ok s) (hb : s.bindings.keys.Nodup)
    (h : hooqImpls env args i = .ok (uses, i')) {p : List Nat} {d : Data} {up : List Data}
    (hu : i.chain p = some (d :: up)) (hr : reached env s (d :: up) = true) :
    ∃ n', i'.tree.sub p = some n' ∧ ∀ m ∈ n'.marks,
      let me := methodAt env s (targetUp m.1.kind (d :: up))
      NoDollars me.template → unspans m.1.toks = unspans (me.lead ++ me.template) := by
  obtain ⟨n', h1, h2⟩ := hook_text hs hb h hu hr
  refine ⟨n', h1, fun m hm hn => ?_⟩
  obtain ⟨sp, c, out, _, rfl, h4, h5⟩ := h2 m hm
  rw [h5, unspans_append, unspans_append, unspans_setSpan, h4.noDollar hn]

/-! ## C22 -/

/-- C22.  Built-ins cannot be shadowed: what a built-in other than `$bindings` and
`$hooq_meta` stands for does not depend on the bindings. -/
theorem C22_builtin (r : RInfo) (so : Span → Except Err (List TT)) {v : MetaVar} {x : String}
    (h : v.Named x) (h1 : v ≠ .bindings) (h2 : v ≠ .hooqMeta) (b : AMap Value) :
    metaVarTokens { r with ctx := { r.ctx with bindings := b } } so x = metaVarTokens r so x := by
  funext sp
  rw [← metaVar_named] at h
  simp only [metaVarTokens, h]
  cases v <;> first | rfl | exact absurd rfl h1 | exact absurd rfl h2

/-- C22.  A built-in always stands for something, except `$so_far`, which stands for the
overridden method. -/
theorem C22_builtin_total (r : RInfo) (so : Span → Except Err (List TT)) {v : MetaVar} {x : String}
    (h : v.Named x) : (v = .soFar ∧ metaVarTokens r so x = so) ∨
      (v ≠ .soFar ∧ ∃ t, ∀ sp, metaVarTokens r so x sp = .ok [t]) := by
  rw [← metaVar_named] at h
  cases v
  case soFar => exact .inl ⟨rfl, by funext sp; simp only [metaVarTokens, h]⟩
  all_goals exact .inr ⟨by simp, _, fun sp => by simp only [metaVarTokens, h]; rfl⟩

/-- C22.  Any other name stands for the binding in force, and without one the
expansion fails with an error that names it, points at it and lists the bindings in
force. -/
theorem C22_binding (r : RInfo) (so : Span → Except Err (List TT)) {x : String} (sp : Span)
    (h : ∀ v, ¬ MetaVar.Named v x) :
    metaVarTokens r so x sp = (match r.ctx.bindings.get? x with
      | some b => .ok [.valueHole b .callSite]
      | none => .error (.unknownVar x ((availableBindings r.ctx.bindings).map (·.1)) sp)) := by
  rw [← metaVar_none] at h
  simp only [metaVarTokens, h]
  cases r.ctx.bindings.get? x <;> rfl

/-- C22.  Substitution is position-wise: a template expands piece by piece, groups
inside out, `$x` to what `x` stands for, all other tokens to themselves. -/
theorem C22_positionwise (r : RInfo) {so : Span → Except Err (List TT)} (hso : SpanFree so) :
    (∀ a b out, (∀ sp, a.getLast? ≠ some (.punct '$' sp)) →
      (expandList r so false (a ++ b) = .ok out ↔
        ∃ oa ob, expandList r so false a = .ok oa ∧ expandList r so false b = .ok ob ∧
          out = oa ++ ob)) ∧
    (∀ x sp sp' out, expandList r so false [.punct '$' sp, .ident x sp'] = .ok out ↔
      metaVarTokens r so x sp' = .ok out) ∧
    (∀ d ts sp out, expandList r so false [.group d ts sp] = .ok out ↔
      ∃ ts', expandList r so false ts = .ok ts' ∧ out = [.group d ts' .callSite]) ∧
    (∀ t, (∀ sp, t ≠ .punct '$' sp) → (∀ d ts sp, t ≠ .group d ts sp) →
      expandList r so false [t] = .ok [t]) := by
  have key := expandList_iff' (r := r) hso
  refine ⟨fun a b out hl => ?_, fun x sp sp' out => ?_, fun d ts sp out => ?_, fun t h1 h2 => ?_⟩
  · simp only [key]
    constructor
    · intro h
      obtain ⟨oa, ob, e, h1, h2⟩ := h.append_inv hl
      exact ⟨oa, ob, h1, h2, e⟩
    · rintro ⟨oa, ob, h1, h2, rfl⟩
      exact h1.append hl h2
  · rw [key]
    constructor
    · intro h
      cases h with
      | var h1 h2 => cases h2; simpa using metaVarTokens_spanFree hso r x _ sp' _ h1
      | tok g1 _ _ => exact absurd rfl (g1 _)
    · intro h
      have := Subst.var (sp := sp) (sp' := sp')
        (σ := fun x o => metaVarTokens r so x .callSite = .ok o)
        (metaVarTokens_spanFree hso r x _ _ _ h) .nil
      simpa using this
  · simp only [key]
    constructor
    · intro h
      cases h with
      | group h1 h2 => cases h2; exact ⟨_, h1, rfl⟩
      | tok _ g2 _ => exact absurd rfl (g2 _ _ _)
    · rintro ⟨ts', h1, rfl⟩
      exact .group h1 .nil
  · rw [key]; exact .tok h1 h2 .nil

/-- C22, output side: in every hook all `$x` stand for something, namely for the
built-in of that name, or else for the binding given by the nearest enclosing node. -/
theorem C22_hooks {env : Env} {args : List Meta} {s : Settings} {i i' : Item}
    {uses : List Path} (hs : rootSettings env args = .ok s) (hb : s.bindings.keys.Nodup)
    (h : hooqImpls env args i = .ok (uses, i')) {p : List Nat} {d : Data} {up : List Data}
    (hu : i.chain p = some (d :: up)) (hr : reached env s (d :: up) = true) :
    ∃ n', i'.tree.sub p = some n' ∧ ∀ m ∈ n'.marks, ∃ σ sp out,
      let tup := targetUp m.1.kind (d :: up)
      let me := methodAt env s tup
      Subst σ me.template out ∧ m.1.toks = me.lead ++ out.map (TT.setSpan sp) ∧
      (∀ x o o', σ x o → σ x o' → o = o') ∧
      (∀ x, (∀ v, ¬ MetaVar.Named v x) → ∀ o, σ x o ↔
        ∃ b, (nearest (bindingOf env x) tup).or (s.bindings.get? x) = some b ∧
          o = [.valueHole b .callSite]) ∧
      (∀ x, DollarThen (TT.IsName x) me.template → (∃ v, MetaVar.Named v x) ∨
        (nearest (bindingOf env x) tup).or (s.bindings.get? x) ≠ none) := by
  obtain ⟨n', h1, h2⟩ := hook_text hs hb h hu hr
  refine ⟨n', h1, fun m hm => ?_⟩
  obtain ⟨sp, c, out, _, rfl, h4, h5⟩ := h2 m hm
  have hbind : ∀ x, (siteAt env s (targetUp m.1.kind (d :: up)) m.1.kind sp m.1.count).binding x
      = (nearest (bindingOf env x) (targetUp m.1.kind (d :: up))).or (s.bindings.get? x) := by
    intro x; rw [← nearest_eq]; rfl
  refine ⟨_, sp, out, h4, h5, varText_unique (stackText_unique _ _), fun x hx o => ?_, fun x hx => ?_⟩
  · rw [varText_binding hx, hbind]
  · obtain ⟨y, sp', o, ⟨sp2, e⟩, ho⟩ := h4.dollarThen hx
    obtain ⟨rfl, -⟩ := TT.ident.inj e
    by_cases hv : ∃ v, MetaVar.Named v y
    · exact .inl hv
    · rw [varText_binding (fun v h => hv ⟨v, h⟩), hbind] at ho
      obtain ⟨b, hb', _⟩ := ho
      exact .inr (by rw [hb']; simp)

/-! ## C23 -/

theorem methodStack_skip {env : Env} {s : Settings} {l up : List Data}
    (h : ∀ d ∈ l, lastSet (methodOf env) d.seen = none) :
    methodStack env s (l ++ up) = methodStack env s up := by
  induction l with
  | nil => rfl
  | cons d l ih =>
    rw [List.cons_append, methodStack, h d (by simp)]
    exact ih fun e he => h e (List.mem_cons_of_mem _ he)

/-- C23.  In every hook `$so_far` stands for the expansion, for the same target, of the
method that was in force around the node that sets the method in force; in that
expansion `$so_far` stands for the method overridden there, and so on. -/
theorem C23_so_far {env : Env} {args : List Meta} {s : Settings} {i i' : Item}
    {uses : List Path} (hs : rootSettings env args = .ok s) (hb : s.bindings.keys.Nodup)
    (h : hooqImpls env args i = .ok (uses, i')) {p : List Nat} {d : Data} {up : List Data}
    (hu : i.chain p = some (d :: up)) (hr : reached env s (d :: up) = true) :
    ∃ n', i'.tree.sub p = some n' ∧ ∀ m ∈ n'.marks, ∃ sp out,
      let tup := targetUp m.1.kind (d :: up)
      let me := methodAt env s tup
      let site := siteAt env s tup m.1.kind sp m.1.count
      ∃ σ, Subst σ me.template out ∧ m.1.toks = me.lead ++ out.map (TT.setSpan sp) ∧
      (∀ x ∈ ["so_far", "sofar"], ∀ l e rest, tup = l ++ e :: rest →
        (∀ e' ∈ l, lastSet (methodOf env) e'.seen = none) →
        lastSet (methodOf env) e.seen ≠ none →
        ∀ o, σ x o ↔ StackText site (methodStack env s rest) o) ∧
      ((∀ e ∈ tup, lastSet (methodOf env) e.seen = none) →
        ∀ x ∈ ["so_far", "sofar"], ∀ o, ¬ σ x o) := by
  obtain ⟨n', h1, h2⟩ := hook_text hs hb h hu hr
  refine ⟨n', h1, fun m hm => ?_⟩
  obtain ⟨sp, c, out, _, rfl, h4, h5⟩ := h2 m hm
  refine ⟨sp, out, _, h4, h5, fun x hx l e rest ht hl he o => ?_, fun hno x hx o => ?_⟩
  · have hn : MetaVar.Named .soFar x := ⟨["so_far", "sofar"], by simp [metaVarNames], hx⟩
    rw [varText_named hn]
    simp only [ht]
    rw [methodStack_skip hl, methodStack]
    cases hm' : lastSet (methodOf env) e.seen with
    | none => exact absurd hm' he
    | some x => rfl
  · have hn : MetaVar.Named .soFar x := ⟨["so_far", "sofar"], by simp [metaVarNames], hx⟩
    rw [varText_named hn]
    have := methodStack_skip (s := s) (up := []) hno
    rw [List.append_nil] at this
    simp only [this, methodStack, List.tail_cons, StackText, not_false_eq_true]

/-- C23, failure.  At a target where no method was overridden, `$so_far` is an error;
otherwise it is the outcome (text or error) of expanding the overridden method. -/
theorem C23_so_far_fails {env : Env} {s : Settings} {up : List Data} {r : RInfo}
    (ha : Agrees env s up r.ctx) {x : String} (hx : x ∈ ["so_far", "sofar"]) :
    ((∀ e ∈ up, lastSet (methodOf env) e.seen = none) ↔
      (∀ sp, metaVarTokens r (soFarOf r r.ctx.method.anc) x sp = .error (.noSoFar sp)) ∧
        r.ctx.method.anc = []) ∧
    (∀ m rest sp, r.ctx.method.anc = m :: rest →
      metaVarTokens r (soFarOf r r.ctx.method.anc) x sp =
        expandList r (soFarOf r rest) false m.template)
    := by
  have hn : MetaVar.ofString x = some .soFar :=
    (metaVar_named _ _).2 ⟨["so_far", "sofar"], by simp [metaVarNames], hx⟩
  have hst : methodStack env s up = r.ctx.method.val :: r.ctx.method.anc := ha.method.symm
  refine ⟨⟨fun hno => ?_, fun h e he => ?_⟩, fun m rest sp hm => ?_⟩
  · have := methodStack_skip (s := s) (up := []) hno
    rw [List.append_nil, hst] at this
    simp only [methodStack, List.cons.injEq] at this
    simp [metaVarTokens, hn, this.2, soFarOf]
  · have hlen : (methodStack env s up).length = 1 := by rw [hst, h.2]; rfl
    clear hst h ha hn
    induction up with
    | nil => simp at he
    | cons d up ih =>
      simp only [methodStack, List.length_append] at hlen
      have hpos : (methodStack env s up).length ≥ 1 := by rw [methodStack_eq]; simp
      cases hd : lastSet (methodOf env) d.seen with
      | some m =>
        rw [hd] at hlen
        simp only [Option.toList, List.length_cons, List.length_nil] at hlen
        omega
      | none =>
        rw [hd] at hlen
        simp at hlen
        rcases List.mem_cons.1 he with rfl | he
        · exact hd
        · exact ih he hlen
  · simp [metaVarTokens, hn, hm, soFarOf]

/-! ## C24 -/

/-- C24.  If somewhere in the template of the method in force a `$` is directly followed
by a token that is no identifier, the expansion fails.  Partial: a `$` that nothing
follows in its group is not reported but vanishes (`C24_vanishes` in Props.Exact). -/
theorem C24_malformed_partial (r : RInfo)
    (h : DollarThen (fun t => ¬ t.IsIdent) r.ctx.method.val.template) :
    ∃ e, expandMethod r = .error e := by
  cases he : expandMethod r with
  | error e => exact ⟨e, rfl⟩
  | ok out =>
    have key := (expandList_iff' (r := r) (soFarOf_spanFree r r.ctx.method.anc) _ out).1 he
    obtain ⟨x, sp, o, hp, _⟩ := key.dollarThen h
    exact absurd ⟨x, sp, rfl⟩ hp

/-- C24, whole macro: with such a method in force at a `?` that is to be hooked, no
output is produced. -/
theorem C24_reported_partial {env : Env} {args : List Meta} {s : Settings} {i : Item}
    (hs : rootSettings env args = .ok s) (hb : s.bindings.keys.Nodup)
    {p : List Nat} {d : Data} {up : List Data} {q : Span} {b : Bool}
    (hu : i.chain p = some (d :: up)) (hq : d.tag = .question q b)
    (hr : reached env s (d :: up) = true) (hh : hookedAt env s (d :: up) .question = true)
    (h : DollarThen (fun t => ¬ t.IsIdent) (methodAt env s (d :: up)).template) :
    ∃ e, hooqImpls env args i = .error e := by
  cases he : hooqImpls env args i with
  | error e => exact ⟨e, rfl⟩
  | ok r =>
    obtain ⟨uses, i'⟩ := r
    obtain ⟨c', hw⟩ := expansion hs he
    obtain ⟨n, n', k', h1, h2, h3, h4, h5, h6, h7⟩ :=
      question_at (wfItem {} i) hb (agrees_new env s) hw hu hq hr
    rw [if_pos hh] at h6
    obtain ⟨hk, m, e1, e2⟩ := h6
    obtain ⟨out, e3, _⟩ := e2.toks
    rw [methodStack_eq, StackText] at e3
    obtain ⟨x, sp, o, hp, _⟩ := e3.dollarThen h
    exact absurd ⟨x, sp, rfl⟩ hp

/-! ## C25 -/

/-- C25.  The listing of the bindings does not depend on the order of the hash map. -/
theorem C25_order_independent {m m' : AMap Value} (hp : m.Perm m') (hn : (AMap.keys m).Nodup) :
    availableBindings m = availableBindings m' := by
  have hn' : (AMap.keys m').Nodup := (hp.map Prod.fst).nodup_iff.1 hn
  have h1 := availableBindings_listing m hn
  have h2 := availableBindings_listing m' hn'
  have : (fun k => AMap.get? m k) = (fun k => AMap.get? m' k) := by
    funext k
    apply Option.ext
    intro v
    rw [← AMap.mem_iff_get? m hn, ← AMap.mem_iff_get? m' hn', hp.mem_iff]
  rw [this] at h1
  exact listing_unique h1 h2

/-- C25, output side: in every hook `$bindings` (and the bindings of `$hooq_meta`) list
exactly the bindings in force at the target, each once, in increasing key order; there
is only one such list. -/
theorem C25_bindings {env : Env} {args : List Meta} {s : Settings} {i i' : Item}
    {uses : List Path} (hs : rootSettings env args = .ok s) (hb : s.bindings.keys.Nodup)
    (h : hooqImpls env args i = .ok (uses, i')) {p : List Nat} {d : Data} {up : List Data}
    (hu : i.chain p = some (d :: up)) (hr : reached env s (d :: up) = true) :
    ∃ n', i'.tree.sub p = some n' ∧ ∀ m ∈ n'.marks, ∃ σ sp out,
      let tup := targetUp m.1.kind (d :: up)
      let me := methodAt env s tup
      let inForce := fun k => (nearest (bindingOf env k) tup).or (s.bindings.get? k)
      Subst σ me.template out ∧ m.1.toks = me.lead ++ out.map (TT.setSpan sp) ∧
      (∀ x ∈ ["bindings", "vars"], ∀ o, σ x o ↔
        ∃ l, Listing inForce l ∧ o = [.bindingsHole l .callSite]) ∧
      (∀ x ∈ ["hooq_meta", "hooqmeta"], ∀ o, σ x o →
        ∃ r, o = [.metaHole r .callSite] ∧ Listing inForce r.bindings) ∧
      (∀ l l', Listing inForce l → Listing inForce l' → l = l') := by
  obtain ⟨n', h1, h2⟩ := hook_text hs hb h hu hr
  refine ⟨n', h1, fun m hm => ?_⟩
  obtain ⟨sp, c, out, _, rfl, h4, h5⟩ := h2 m hm
  have hbind : (siteAt env s (targetUp m.1.kind (d :: up)) m.1.kind sp m.1.count).binding
      = fun x => (nearest (bindingOf env x) (targetUp m.1.kind (d :: up))).or (s.bindings.get? x) := by
    funext x; rw [← nearest_eq]; rfl
  refine ⟨_, sp, out, h4, h5, fun x hx o => ?_, fun x hx o => ?_, fun l l' => listing_unique⟩
  · have hn : MetaVar.Named .bindings x := ⟨["bindings", "vars"], by simp [metaVarNames], hx⟩
    rw [varText_named hn, hbind]
  · have hn : MetaVar.Named .hooqMeta x := ⟨["hooq_meta", "hooqmeta"], by simp [metaVarNames], hx⟩
    rw [varText_named hn, hbind]
    rintro ⟨l, f, g1, g2, rfl⟩
    exact ⟨_, rfl, g1⟩

/-! ## C26 -/

/-- C26.  In every hook `$line`, `$column`, `$path` are the position of the anchor of
the target: the `?`, the `return` keyword, or the first token of the tail expression;
`$file` is the part of `$path` after the last `/`.  The first token of the tail
expression is that of the source, unless a hook that replaces sits on it. -/
theorem C26_location {env : Env} {args : List Meta} {s : Settings} {i i' : Item}
    {uses : List Path} (hs : rootSettings env args = .ok s) (hb : s.bindings.keys.Nodup)
    (h : hooqImpls env args i = .ok (uses, i')) {p : List Nat} {d : Data} {up : List Data}
    (hu : i.chain p = some (d :: up)) (hr : reached env s (d :: up) = true) :
    ∃ n n', i.tree.sub p = some n ∧ i'.tree.sub p = some n' ∧ ∀ m ∈ n'.marks, ∃ σ sp out,
      let me := methodAt env s (targetUp m.1.kind (d :: up))
      Subst σ me.template out ∧ m.1.toks = me.lead ++ out.map (TT.setSpan sp) ∧
      IsAnchor (d :: up) n' m.1.kind sp ∧
      ((∀ m ∈ n'.headMarks, m.1.mode = .insert) → m.1.kind = .tail → sp = n.start) ∧
      (∀ o, σ "line" o ↔ o = [.lit (.usize sp.line) .callSite]) ∧
      (∀ x ∈ ["column", "col"], ∀ o, σ x o ↔ o = [.lit (.usize sp.col) .callSite]) ∧
      (∀ o, σ "path" o ↔ o = [.lit (.str sp.file) .callSite]) ∧
      (∀ o, σ "file" o ↔ ∃ f, '/' ∉ f.toList ∧ (sp.file = f ∨ ∃ dir, sp.file = dir ++ "/" ++ f) ∧
        o = [.lit (.str f) .callSite]) := by
  obtain ⟨n', h1, h2⟩ := hook_text hs hb h hu hr
  obtain ⟨c', hw⟩ := expansion hs h
  obtain ⟨n, n0, n2, upn, ctx', c1, c2, g1, g2, g3, g4, g5, g6, g7, g8⟩ :=
    gwalk_local (agrees_new env s) hw hu hr
  rw [h1] at g2
  obtain rfl := Option.some.inj g2
  refine ⟨n, n', g1, h1, fun m hm => ?_⟩
  obtain ⟨sp, c, out, h3, rfl, h4, h5⟩ := h2 m hm
  refine ⟨_, sp, out, h4, h5, h3, fun hi hk => ?_, fun o => ?_, fun x hx o => ?_, fun o => ?_,
    fun o => ?_⟩
  · rw [hk] at h3
    have h3 : sp = n'.bare.start := h3
    have hbare : n'.bare = n0.bare := by simp [RTree.bare, g6, g7]
    have hhead : n0.headMarks = n'.headMarks := by
      obtain ⟨d0, m0, k0⟩ := n0
      obtain ⟨d1, m1, k1⟩ := n'
      simp only [RTree.data_mk, RTree.kids_mk] at g6 g7
      rw [headMarks_eq, headMarks_eq, g6, g7]
    rw [h3, hbare, gwalk_start n g5 (by rw [hhead]; exact hi)]
    obtain ⟨dn, ms, kids⟩ := n
    rw [RTree.data_mk] at g3
    obtain ⟨rfl, rfl⟩ := List.cons.inj g3
    have hv : d.edge.visit = true := by
      rw [reached_cons] at hr; simp only [Bool.and_eq_true] at hr; exact hr.1.1
    have hbt := (gwalk_inv (d := d) hv g5).1
    simp only [RTree.built, Bool.or_eq_false_iff, Bool.not_eq_false', List.isEmpty_iff] at hbt
    rw [hbt.1]; rfl
  · have hn : MetaVar.Named .line "line" := ⟨["line"], by simp [metaVarNames], by simp⟩
    exact varText_named hn o
  · have hn : MetaVar.Named .column x := ⟨["column", "col"], by simp [metaVarNames], hx⟩
    exact varText_named hn o
  · have hn : MetaVar.Named .path "path" := ⟨["path"], by simp [metaVarNames], by simp⟩
    exact varText_named hn o
  · have hn : MetaVar.Named .file "file" := ⟨["file"], by simp [metaVarNames], by simp⟩
    have := varText_named (site := siteAt env s (targetUp m.1.kind (d :: up)) m.1.kind sp m.1.count)
      (P := StackText (siteAt env s (targetUp m.1.kind (d :: up)) m.1.kind sp m.1.count)
            (methodStack env s (targetUp m.1.kind (d :: up))).tail) hn o
    rw [this]
    simp only [IsFileOf, and_assoc]
    rfl

/-! ## C27 -/

/-- C27.  Every top-level token of the inserted text carries the span of the anchor of
the target, except the `.` of a method that is inserted, which keeps its own.  Partial
because of that `.`. -/
theorem C27_spans_partial {env : Env} {args : List Meta} {s : Settings} {i i' : Item}
    {uses : List Path} (hs : rootSettings env args = .ok s) (hb : s.bindings.keys.Nodup)
    (h : hooqImpls env args i = .ok (uses, i')) {p : List Nat} {d : Data} {up : List Data}
    (hu : i.chain p = some (d :: up)) (hr : reached env s (d :: up) = true) :
    ∃ n', i'.tree.sub p = some n' ∧ ∀ m ∈ n'.marks, ∃ sp, IsAnchor (d :: up) n' m.1.kind sp ∧
      (m.1.mode = .replace → ∀ t ∈ m.1.toks, t.span = sp) ∧
      (m.1.mode = .insert → ∃ dot rest, m.1.toks = .punct '.' dot :: rest ∧
        ∀ t ∈ rest, t.span = sp) := by
  obtain ⟨n', h1, h2⟩ := C08_lexical_hooks hs hb h hu hr
  refine ⟨n', h1, fun m hm => ?_⟩
  obtain ⟨_, _, _, sp, c, h3, h4⟩ := h2 m hm
  obtain ⟨out, _, h6⟩ := h4.toks
  have hsp : ∀ t ∈ out.map (TT.setSpan sp), t.span = sp := by
    intro t ht
    obtain ⟨t', _, rfl⟩ := List.mem_map.1 ht
    cases t' <;> rfl
  refine ⟨sp, h3, ?_, ?_⟩
  · intro hmode t ht
    rw [h4.mode] at hmode
    cases hme : methodAt env s (targetUp m.1.kind (d :: up)) with
    | insert _ _ _ => rw [hme] at hmode; simp [Method.mode] at hmode
    | replace _ _ => rw [hme] at h6; rw [h6] at ht; exact hsp t (by simpa using ht)
  · intro hmode
    rw [h4.mode] at hmode
    cases hme : methodAt env s (targetUp m.1.kind (d :: up)) with
    | insert dot _ _ => rw [hme] at h6; exact ⟨dot, _, h6, hsp⟩
    | replace _ _ => rw [hme] at hmode; simp [Method.mode] at hmode

/-! ## C28 -/

/-- C28.  A text that starts with `.` is inserted, any other replaces; groups without
delimiters before the `.` do not count and are left.  With consume-question exactly one
trailing `!` is split off; otherwise the text is kept as it is. -/
theorem C28_method_syntax (consume : Bool) (ts : List TT) :
    ∃ us, ((∃ sp rest, us = .punct '.' sp :: rest ∧ Enters ts us ∧ (Method.parse consume ts).mode = .insert) ∨
      (us = ts ∧ (¬ ∃ sp rest, Enters ts (.punct '.' sp :: rest)) ∧ (Method.parse consume ts).mode = .replace)) ∧
    (consume = false → (Method.parse consume ts).exc = false ∧
      (Method.parse consume ts).lead ++ (Method.parse consume ts).template = us) ∧
    (consume = true →
      (Method.parse consume ts).exc = true →
        ∃ sp, (Method.parse consume ts).lead ++ (Method.parse consume ts).template
          ++ [.punct '!' sp] = us) ∧
    (consume = true → (Method.parse consume ts).exc = false →
      (Method.parse consume ts).lead ++ (Method.parse consume ts).template = us ∧
      ∀ sp, us.getLast? ≠ some (.punct '!' sp)) := by
  have hsplit : ∀ l : List TT,
      ((splitTailExclamation l).2 = true → ∃ sp, (splitTailExclamation l).1 ++ [.punct '!' sp] = l) ∧
      ((splitTailExclamation l).2 = false → (splitTailExclamation l).1 = l ∧
        ∀ sp, l.getLast? ≠ some (.punct '!' sp)) := by
    intro l
    simp only [splitTailExclamation]
    cases hl : l.getLast? with
    | none => simp
    | some t =>
      simp only
      split
      · rename_i ht
        obtain ⟨sp, rfl⟩ := (TT.isPunct_iff _ _).1 ht
        refine ⟨fun _ => ⟨sp, ?_⟩, by simp⟩
        have hne : l ≠ [] := by rintro rfl; simp at hl
        rw [List.getLast?_eq_some_getLast hne] at hl
        have := List.dropLast_append_getLast hne
        rw [Option.some.inj hl] at this
        exact this
      · rename_i ht
        refine ⟨by simp, fun _ => ⟨rfl, fun sp e => ht ?_⟩⟩
        rw [Option.some.inj e]; simp [TT.isPunct]
  by_cases hdot : ∃ sp rest, Enters ts (.punct '.' sp :: rest)
  · obtain ⟨sp, rest, hen⟩ := hdot
    have hE := (enters_iff _ _).1 hen
    obtain ⟨h1, h2⟩ := hsplit rest
    refine ⟨.punct '.' sp :: rest, ?_⟩
    cases consume with
    | false =>
      simp [Method.parse, hE, hen, Method.mode, Method.exc, Method.lead, Method.template]
    | true =>
      simp only [Method.parse, hE, if_true, Method.mode, Method.exc, Method.lead, Method.template]
      refine ⟨.inl ⟨_, _, rfl, hen, trivial⟩, by simp, fun _ he => ?_, fun _ he => ?_⟩
      · obtain ⟨sp', e⟩ := h1 he
        exact ⟨sp', by rw [List.append_assoc, e]; rfl⟩
      · obtain ⟨e1, e2⟩ := h2 he
        refine ⟨by rw [e1]; rfl, fun sp' e => ?_⟩
        cases rest with
        | nil => simp at e
        | cons y l => exact e2 sp' (by simpa using e)
  · have hp : Method.parse consume ts = if consume then
        .replace (splitTailExclamation ts).1 (splitTailExclamation ts).2 else .replace ts false := by
      unfold Method.parse
      split
      · rename_i hE
        exact absurd ⟨_, _, (enters_iff _ _).2 hE⟩ hdot
      · rfl
    rw [hp]
    obtain ⟨h1, h2⟩ := hsplit ts
    refine ⟨ts, .inr ⟨rfl, hdot, ?_⟩, ?_, ?_, ?_⟩
    · cases consume <;> simp [Method.mode]
    · rintro rfl; simp [Method.exc, Method.lead, Method.template]
    · rintro rfl he
      simpa [Method.lead, Method.template] using h1 he
    · rintro rfl he
      simpa [Method.lead, Method.template] using h2 he

/-! ## Examples -/

section
open Ex
set_option maxRecDepth 10000

example : [1, 2, 3, 4, 11, 12, 13, 21, 111, 122].map (countText · .question) =
    ["1st ?", "2nd ?", "3rd ?", "4th ?", "11th ?", "12th ?", "13th ?", "21st ?", "111th ?",
      "122nd ?"] := by decide

/-- The `return` in the closure of the sample: the innermost function is the closure, the
nearest fn is `f`. -/
example : ∃ d up, Ex.item.chain [2, 0, 0, 1] = some (d :: up) ∧ d.tag = .ret ∧
    reached env settings (d :: up) = true ∧ hookedAt env settings (d :: up) .ret = true ∧
    innermostFn (d :: up) = some (.closure { output := result, text := "|| -> Result {}" }) ∧
    fnNameAt (d :: up) = "__closure_in_f__" ∧
    (FnEntry.closure { output := result, text := "|| -> Result {}" }).output.EndsIn
      (resultTypesAt env settings (d :: up)) :=
  ⟨_, _, rfl, rfl, rfl, rfl, rfl, rfl, ⟨_, _, rfl, rfl, by decide⟩⟩

/-- `Err(t)` at the end of the sample: the hypotheses of C17 for tails. -/
example : ∃ d up f, Ex.item.chain [7] = some (d :: up) ∧ d.edge.tail = some .fnTail ∧
    d.mode ≠ .untouched ∧ hookedAt env settings (d :: up) .tail = true ∧
    innermostFn (d :: up) = some f :=
  ⟨_, _, _, rfl, rfl, by decide, rfl, rfl⟩

/-- `a(b, "$")` contains no `$` token. -/
example : NoDollars [tkId "a", tkParen [tkId "b", tkP ',', .lit (.str "$") .callSite]] := by
  simp [NoDollars, TT.NoDollar, tkId, tkP, tkParen]

/-- `.a($fn_name, $so_far)` of the sample: two variables, the method in force at `h?`. -/
example : ∃ d up, Ex.item.chain [0, 0, 0, 1] = some (d :: up) ∧
    DollarThen (TT.IsName "so_far") (methodAt env settings (d :: up)).template ∧
    ∃ l e rest, d :: up = l ++ e :: rest ∧ (∀ e' ∈ l, lastSet (methodOf env) e'.seen = none) ∧
      lastSet (methodOf env) e.seen ≠ none := by
  refine ⟨_, _, rfl, ?_, [_, _, _], _, _, rfl, ?_, ?_⟩
  · exact .later (.inside (.later (.later (.later (.here ⟨_, rfl⟩)))))
  · simp [Data.seen, lastSet]
  · intro h; simp [Data.seen, lastSet] at h; revert h; decide

/-- A context with the given method and nothing else. -/
def Ex.plain (m : Method) : RInfo where
  ctx := Ctx.new { settings with method := m }
  kind := .question
  count := 1
  span := sp 1 1

/-- `$` before a comma is an error, and so is one in a group; `$` at the end is not (the
full C24 fails). -/
example : (∃ e, expandMethod (Ex.plain (.replace [tkId "a", tkParen [tkP '$', tkP ',']] false)) = .error e) ∧
    DollarThen (fun t => ¬ t.IsIdent)
      (Ex.plain (.replace [tkId "a", tkParen [tkP '$', tkP ',']] false)).ctx.method.val.template ∧
    expandMethod (Ex.plain (.replace [tkId "a", tkParen [tkP '$']] false))
      = .ok [tkId "a", .group .paren [] .callSite] :=
  ⟨⟨_, rfl⟩, .later (.inside (.here (by simp [TT.IsIdent, tkP]))), rfl⟩

/-- An unbound name is an error that names it, a built-in wins over a binding. -/
example : expandMethod (Ex.plain (.replace (tkVar "nope") false)) =
      .error (.unknownVar "nope" [] .callSite) ∧
    expandMethod { Ex.plain (.replace (tkVar "line") false) with
      ctx := { (Ex.plain (.replace (tkVar "line") false)).ctx with
        bindings := [("line", ⟨.other, "0"⟩)] } } = .ok [.lit (.usize 1) .callSite] ∧
    expandMethod (Ex.plain (.replace (tkVar "so_far") false)) = .error (.noSoFar .callSite) :=
  ⟨rfl, rfl, rfl⟩

/-- Two bindings given in different orders. -/
example : availableBindings [("b", ⟨.other, "1"⟩), ("a", ⟨.other, "2"⟩)]
      = [("a", ⟨.other, "2"⟩), ("b", ⟨.other, "1"⟩)] ∧
    availableBindings [("a", ⟨.other, "2"⟩), ("b", ⟨.other, "1"⟩)]
      = [("a", ⟨.other, "2"⟩), ("b", ⟨.other, "1"⟩)] := by decide

/-- `.a()!` with and without the feature. -/
example : Method.parse true [tkP '.', tkId "a", tkParen [], tkP '!']
      = .insert .callSite [tkId "a", tkParen []] true ∧
    Method.parse false [tkP '.', tkId "a", tkParen [], tkP '!']
      = .insert .callSite [tkId "a", tkParen [], tkP '!'] false ∧
    Method.parse true [tkId "a", tkP '!', tkParen []] = .replace [tkId "a", tkP '!', tkParen []] false ∧
    Method.parse true [.group .none [tkP '.', tkId "a"] .callSite, tkParen []]
      = .insert .callSite [tkId "a", tkParen []] false :=
  ⟨rfl, rfl, rfl, rfl⟩

/-- `#[hooq::method(.a())] fn f() { x?; }`: the hook is inserted, so its first token keeps
its own span (the full C27 fails). -/
example : ∃ i' n' m, hooqImpls env [] (.fn [.list (hooqPath "method") [tkP '.', tkId "a", tkParen []]]
      { ident := "f", output := .none, text := "" } [.expr (quest [] (var "x" 1) 1) true])
        = .ok ([], i') ∧
    i'.tree.sub [0, 0] = some n' ∧ n'.marks = [m] ∧ m.1.mode = .insert ∧
    m.1.toks.map TT.span = [.callSite, sp 1 9, sp 1 9] :=
  ⟨_, _, _, rfl, rfl, rfl, rfl, rfl⟩

end

end Hooq
