import Verif.Proof.Chain
import Verif.Props.Laws
import Verif.Props.Presets

/-!
# Methods that are chains of calls always work
-/

namespace Hooq

/-! ## Listings -/

/-- Bindings that only finitely many names have can be listed. -/
theorem listing_exists {b : String → Option Value} {ks : List String} (h : ∀ k, b k ≠ none → k ∈ ks) :
    ∃ l, Listing b l := by
  let m : AMap Value := ks.dedup.filterMap fun k => (b k).map fun v => (k, v)
  have hmem : ∀ k v, (k, v) ∈ m ↔ b k = some v := by
    intro k v
    simp only [m, List.mem_filterMap, List.mem_dedup, Option.map_eq_some_iff, Prod.mk.injEq]
    constructor
    · rintro ⟨k', -, v', h1, rfl, rfl⟩
      exact h1
    · intro hb
      exact ⟨k, h k (by simp [hb]), v, hb, rfl, rfl⟩
  have hk : (AMap.keys m).Nodup := by
    have : AMap.keys m = ks.dedup.filter fun k => (b k).isSome := by
      simp only [AMap.keys, m]
      induction ks.dedup with
      | nil => rfl
      | cons k ks ih =>
        cases hb : b k <;> simp [List.filterMap_cons, hb, ih]
    rw [this]
    exact (List.nodup_dedup ks).filter _
  have := availableBindings_listing m hk
  refine ⟨_, this.sorted, fun k v => ?_⟩
  rw [this.exact, ← AMap.mem_iff_get? m hk, hmem]

theorem bindingOf_finite (env : Env) (a : Attr) : ∃ ks : List String, ∀ k, bindingOf env k a ≠ none → k ∈ ks := by
  cases a with
  | path p => exact ⟨[], fun k h => absurd rfl h⟩
  | list p ts =>
    cases hp : env.parseNameValue ts with
    | none =>
      refine ⟨[], fun k h => absurd ?_ h⟩
      simp [bindingOf, hp, whenNamed]
    | some q =>
      refine ⟨q.1.segs.map (·.ident), fun k h => ?_⟩
      simp only [bindingOf, hp, whenNamed] at h
      split at h
      · split at h
        · rename_i hq
          simp [hq, Path.ofIdents]
        · exact absurd rfl h
      · exact absurd rfl h
  | nv p v =>
    cases hf : flavorOf env v with
    | none =>
      refine ⟨p.segs.map (·.ident), fun k h => ?_⟩
      simp only [bindingOf, hf] at h
      split at h
      · exact absurd rfl h
      · split at h
        · exact absurd rfl h
        · split at h
          · rename_i hs
            split at h
            · rename_i hc
              simp [hs, hc.2]
            · exact absurd rfl h
          · exact absurd rfl h
    | some f =>
      refine ⟨p.segs.map (·.ident) ++ f.bindings.map Prod.fst, fun k h => ?_⟩
      simp only [bindingOf, hf] at h
      split at h
      · simp only [Option.bind_some, ne_eq, List.getLast?_eq_none_iff, List.filterMap_eq_nil_iff, not_forall] at h
        obtain ⟨b, h1, h2⟩ := h
        split at h2
        · rename_i hk
          exact List.mem_append_right _ (List.mem_map.2 ⟨b, h1, hk⟩)
        · exact absurd rfl h2
      · split at h
        · exact absurd rfl h
        · split at h
          · rename_i hs
            split at h
            · rename_i hc
              simp [hs, hc.2]
            · exact absurd rfl h
          · exact absurd rfl h

theorem get?_missing {α : Type} {m : AMap α} {k : String} (h : k ∉ AMap.keys m) : AMap.get? m k = none := by
  induction m with
  | nil => rfl
  | cons y m ih =>
    simp only [AMap.keys, List.map_cons, List.mem_cons, not_or] at h
    rw [AMap.get?, if_neg (fun e => h.1 (by first | exact e.symm | exact e))]
    exact ih h.2

theorem bindingAt_listing (env : Env) (s : Settings) (up : List Data) :
    ∃ l, Listing (fun k => bindingAt env s k up) l := by
  choose ks hks using bindingOf_finite env
  refine listing_exists (ks := (attrsOver up).flatMap ks ++ s.bindings.keys) fun k hk => ?_
  rw [List.mem_append]
  by_cases h : ∃ a ∈ attrsOver up, bindingOf env k a ≠ none
  · obtain ⟨a, h1, h2⟩ := h
    exact .inl (List.mem_flatMap.2 ⟨a, h1, hks a k h2⟩)
  · right
    have h' : lastSet (bindingOf env k) (attrsOver up) = none := by
      refine lastSet_eq_none fun a ha => ?_
      apply Classical.byContradiction
      exact fun hn => h ⟨a, ha, hn⟩
    simp only [bindingAt, h', Option.none_or] at hk
    apply Classical.byContradiction
    intro hn
    exact hk (get?_missing hn)

/-! ## C86 -/

/-- C86, text.  Where all methods in force are chains of calls, every hook is one too, and is
inserted behind its operand. -/
theorem C86_form {env : Env} {args : List Meta} {s : Settings} {i i' : Item} {uses : List Path}
    (hs : rootSettings env args = .ok s) (hn : s.bindings.keys.Nodup)
    (h : hooqImpls env args i = .ok (uses, i')) {p : List Nat} {d : Data} {up : List Data}
    (hu : i.chain p = some (d :: up)) (hr : reached env s (d :: up) = true)
    (hc : ∀ k, ChainStack (fun x => bindingAt env s x (targetUp k (d :: up)))
      (methodStack env s (targetUp k (d :: up)))) :
    ∃ n', i'.tree.sub p = some n' ∧ ∀ m ∈ n'.marks, m.1.mode = .insert ∧ Form emitted .trail m.1.toks := by
  obtain ⟨n', h1, h2⟩ := C08_lexical_hooks hs hn h hu hr
  refine ⟨n', h1, fun m hm => ?_⟩
  obtain ⟨_, _, _, sp, c, h3, h4⟩ := h2 m hm
  obtain ⟨out, h5, h6⟩ := h4.toks
  have hcs := hc m.1.kind
  obtain ⟨out', h7, h8⟩ := stack_expand
    (v := siteAt env s (targetUp m.1.kind (d :: up)) m.1.kind sp c)
    (bindingAt_listing env s _) hcs
  obtain rfl := stackText_unique _ _ _ _ h5 h7
  have hme : ∃ dot ts exc, methodAt env s (targetUp m.1.kind (d :: up)) = .insert dot ts exc := by
    rw [methodStack_eq] at hcs
    cases ht : (methodStack env s (targetUp m.1.kind (d :: up))).tail with
    | nil =>
      rw [ht] at hcs
      obtain ⟨dot, ts, exc, e, -⟩ := hcs
      exact ⟨dot, ts, exc, e⟩
    | cons m' rest =>
      rw [ht] at hcs
      obtain ⟨⟨dot, ts, exc, e, -⟩, -⟩ := hcs
      exact ⟨dot, ts, exc, e⟩
  obtain ⟨dot, ts, exc, hme⟩ := hme
  rw [hme] at h6
  exact ⟨by rw [h4.mode, hme]; rfl, by rw [h6]; exact (h8 dot).dot dot sp⟩

/-- C86, in force.  A parser that reads chains of calls accepts such a method at every
target. -/
theorem C86_works {env : Env} (hr : ReadsChains env) {s : Settings} {up : List Data}
    (h : ChainStack (fun x => bindingAt env s x up) (methodStack env s up)) : WorksAt env s up := by
  have hm : ∃ more, ChainMethod (fun x => bindingAt env s x up) more (methodAt env s up) := by
    rw [methodStack_eq] at h
    cases ht : (methodStack env s up).tail with
    | nil => rw [ht] at h; exact ⟨_, h⟩
    | cons m anc => rw [ht] at h; exact ⟨_, h.1⟩
  obtain ⟨more, dot, ts, exc, hm, -⟩ := hm
  refine ⟨dot, ts, exc, hm, fun k sp n => ?_⟩
  obtain ⟨out, h1, h2⟩ := stack_expand (v := siteAt env s up k sp n) (bindingAt_listing env s up) h
  exact ⟨out, h1, .whole, hr _ _ ((h2 dot).dot dot sp), by simp⟩

/-- C86.  With a parser that reads chains of calls, an item whose attributes are well-formed
and whose methods, wherever they are to be used, are chains of calls expands if and only if
nothing that is to be hooked is, as written, an expression that cannot carry a method call. -/
theorem C86_expands_iff {env : Env} {args : List Meta} {s : Settings} {i : Item}
    (hs : rootSettings env args = .ok s) (hn : s.bindings.keys.Nodup) (hsrc : i.IsSource)
    (hread : ReadsChains env)
    (hok : ∀ p d up, i.chain p = some (d :: up) → reached env s (d :: up) = true →
      (∀ a ∈ d.seen, AttrOk env a) ∧ ((∃ k, hookedAt env s (d :: up) k = true) →
        ChainStack (fun x => bindingAt env s x (d :: up)) (methodStack env s (d :: up)))) :
    (∃ r, hooqImpls env args i = .ok r) ↔
      ¬ ∃ p n up, i.tree.sub p = some n ∧ i.chain p = some (n.data :: up) ∧
        reached env s (n.data :: up) = true ∧ Blocked env s n up :=
  C61_expands_iff hs hn hsrc fun p d up hu hr =>
    ⟨(hok p d up hu hr).1, fun hk => C86_works hread ((hok p d up hu hr).2 hk)⟩

/-! ## The built-in flavors -/

theorem memberName_of {x : String} (h : x ≠ "" ∧ x ∉ otherKeywords ∧ x ∉ ["self", "Self", "super", "crate"]) :
    MemberName x := ⟨⟨h.1, h.2.1⟩, h.2.2⟩

theorem known_meta {b : String → Option Value} {x : String} (m : MetaVar) (hm : m ≠ .soFar) (h : m.Named x) :
    Known b x := .inl ⟨m, hm, h⟩

theorem known_level {b : String → Option Value} (h : b "level" ≠ none) : Known b "level" := by
  refine .inr ⟨?_, h⟩
  rintro m ⟨l, hl, hx⟩
  simp only [metaVarNames, List.mem_cons, Prod.mk.injEq, List.not_mem_nil, or_false] at hl
  rcases hl with ⟨-, rfl⟩ | ⟨-, rfl⟩ | ⟨-, rfl⟩ | ⟨-, rfl⟩ | ⟨-, rfl⟩ | ⟨-, rfl⟩ | ⟨-, rfl⟩ | ⟨-, rfl⟩ | ⟨-, rfl⟩ |
    ⟨-, rfl⟩ | ⟨-, rfl⟩ | ⟨-, rfl⟩ <;> revert hx <;> decide

theorem named_of {m : MetaVar} {x : String} {l : List String} (h : (m, l) ∈ metaVarNames) (hx : x ∈ l) : m.Named x :=
  ⟨l, h, hx⟩

theorem isVar_tk {Q : String → Prop} {x : String} (h : Q x) : IsVar Q (tkVar x) := ⟨x, _, _, rfl, h⟩

instance (x : String) : Decidable (PathWord x) := inferInstanceAs (Decidable (_ ∧ _))

section
variable {b : String → Option Value} {more : Prop} {helpers : List TT}

/-- `let x = $y;` and what follows. -/
theorem form_let {x y : String} {r : List TT} (hx : MemberName x) (hy : Known b y)
    (hr : Form (template b more) .stmts r) : Form (template b more) .stmts (tkLet x (tkVar y) ++ r) :=
  .letStmt (e := tkVar y) _ _ _ _ hx (.piece (isVar_tk hy)) hr

theorem form_head (hh : PathForm helpers) {mac : String} (hm : PathWord mac) {r : List TT}
    (hr : Form (template b more) .stmts r) :
    Form (template b more) .stmts (presetHead helpers mac ++ r) := by
  have e : presetHead helpers mac ++ r = tkLet "path" (tkVar "path") ++ (tkLet "line" (tkVar "line") ++
      (tkLet "col" (tkVar "col") ++ (tkId "let" :: tkId "expr" :: tkP '=' ::
        (((helpers ++ [tkP ':', tkP ':', tkId mac]) ++ [tkP '!', tkParen (tkVar "source")]) ++ tkP ';' :: r)))) := by
    simp [presetHead, tkLet, tkVar]
  rw [e]
  refine form_let (memberName_of (by decide)) (known_meta .path (by decide) (named_of (l := ["path"]) (by decide) (by decide))) ?_
  refine form_let (memberName_of (by decide)) (known_meta .line (by decide) (named_of (l := ["line"]) (by decide) (by decide))) ?_
  refine form_let (memberName_of (by decide)) (known_meta .column (by decide) (named_of (l := ["column", "col"]) (by decide) (by decide))) ?_
  refine .letStmt _ _ _ _ (memberName_of (by decide)) (.high (.mac _ _ (.more _ _ _ hh hm) (.inl rfl) ?_)) hr
  refine ⟨fun _ _ => ⟨⟨"source", ⟨_, rfl⟩, known_meta .source (by decide) (named_of (l := ["source"]) (by decide) (by decide))⟩, trivial⟩,
    fun h => absurd rfl (h _)⟩

theorem form_abs {x y : String} (hx : PathWord x) (hy : PathWord y) : PathForm (tkAbs [x, y]) :=
  .more (p := [tkP ':', tkP ':', tkId x]) _ _ _ (.absolute _ _ _ hx) hy

/-- `::x::y!(..);` at the end of a block. -/
theorem form_report {x y : String} {ts : List TT} (hx : PathWord x) (hy : PathWord y)
    (hts : ClosedAll (Known b) false ts) :
    Form (template b more) .stmts (tkAbs [x, y] ++ [tkP '!', tkParen ts, tkP ';']) := by
  have e : tkAbs [x, y] ++ [tkP '!', tkParen ts, tkP ';'] = (tkAbs [x, y] ++ [tkP '!', tkParen ts]) ++ tkP ';' :: [] := by
    simp
  rw [e]
  exact .semi _ (.mac _ _ (form_abs hx hy) (.inl rfl) hts) .noStmts

/-- `format!(..)` at the end of a block. -/
theorem form_format {t : String} :
    Form (template b more) .stmts [tkId "format", tkP '!', tkParen [tkStr t]] :=
  .last (.mac (p := [tkId "format"]) _ _ (.name _ (by decide)) (.inl rfl) (by simp [ClosedAll, TT.Closed, tkStr, template]))

/-- `.x(|e| { .. })`. -/
theorem form_inspect {x : String} {body : List TT} (hx : MemberName x) (h : Form (template b more) .stmts body) :
    Form (template b more) .trail [tkP '.', tkId x, tkParen ([tkP '|', tkId "e", tkP '|'] ++ [tkBrace body])] :=
  .method _ _ _ hx (.oneArg (.closure1 _ _ _ (memberName_of (by decide)) (.block _ h)))

/-- `.x(|| { .. })`. -/
theorem form_lazy {x : String} {body : List TT} (hx : MemberName x) (h : Form (template b more) .stmts body) :
    Form (template b more) .trail [tkP '.', tkId x, tkParen ([tkP '|', tkP '|'] ++ [tkBrace body])] :=
  .method _ _ _ hx (.oneArg (.closure0 _ _ (.block _ h)))

theorem preset_form (hh : PathForm helpers) {q : List String} (he : q.head? ≠ some "empty")
    (hl : q.head? = some "log" ∨ q.head? = some "tracing" → b "level" ≠ none) :
    Form (template b more) .trail (presetTokens helpers q) := by
  rw [presetTokens, if_neg he]
  split
  · refine form_lazy (body := tkVar "hooq_meta") (memberName_of (by decide)) (.lastPiece (isVar_tk ⟨.hooqMeta, by decide, by decide, by decide, ?_⟩))
    exact named_of (l := ["hooq_meta", "hooqmeta"]) (by decide) (by decide)
  split
  · rename_i hq
    have hk := known_level (hl (.inl hq))
    rw [logMethodTokens, List.append_assoc, List.append_assoc]
    refine form_inspect (memberName_of (by decide)) (form_head hh (by decide)
      (form_let (memberName_of (by decide)) hk (form_report (by decide) (by decide) ?_)))
    simp [ClosedAll, TT.Closed, tkStr, tkId, tkP]
  split
  · rw [anyhowMethodTokens]
    exact form_lazy (memberName_of (by decide)) (form_head hh (by decide) form_format)
  split
  · rw [eyreMethodTokens]
    exact form_lazy (memberName_of (by decide)) (form_head hh (by decide) form_format)
  split
  · rename_i hq
    have hk := known_level (hl (.inr hq))
    rw [tracingMethodTokens, List.append_assoc]
    refine form_inspect (memberName_of (by decide)) (form_head hh (by decide)
      (form_report (by decide) (by decide) ?_))
    simp [ClosedAll, TT.Closed, TT.IsName, tkVar, tkId, tkP, hk]
  · rw [defaultMethodTokens, List.append_assoc]
    refine form_inspect (memberName_of (by decide)) (form_head hh (by decide) (form_report (by decide) (by decide) ?_))
    simp [ClosedAll, TT.Closed, tkStr]

theorem preset_chain (hh : PathForm helpers) {q : List String} (he : q.head? ≠ some "empty")
    (hl : q.head? = some "log" ∨ q.head? = some "tracing" → b "level" ≠ none) (consume : Bool) :
    ChainMethod b more (Method.parse consume (presetTokens helpers q)) := by
  have h := preset_form (b := b) (more := more) hh he hl
  have e : ∃ x g, presetTokens helpers q = [tkP '.', tkId x, tkParen g] := by
    rw [presetTokens, if_neg he]
    split
    · exact ⟨_, _, rfl⟩
    split
    · exact ⟨_, _, rfl⟩
    split
    · exact ⟨_, _, rfl⟩
    split
    · exact ⟨_, _, rfl⟩
    split
    · exact ⟨_, _, rfl⟩
    · exact ⟨_, _, rfl⟩
  obtain ⟨x, g, e⟩ := e
  rw [e] at h ⊢
  refine ⟨.callSite, [tkId x, tkParen g], false, ?_, h⟩
  cases consume <;> rfl

end

theorem preset_heads {doc : PresetDoc} (h : doc ∈ presetDocs) (he : doc.path ≠ ["empty"]) :
    doc.path.head? ≠ some "empty" ∧
      (doc.path.head? = some "log" ∨ doc.path.head? = some "tracing" → ∃ l, doc.level = some l) := by
  simp only [presetDocs, List.mem_cons, List.not_mem_nil, or_false] at h
  rcases h with rfl | rfl | rfl | rfl | rfl | rfl | rfl | rfl | rfl | rfl | rfl | rfl | rfl | rfl | rfl | rfl | rfl |
    rfl <;> first | exact absurd rfl he | simp [logDoc, tracingDoc]

/-- C86, presets.  The method of every built-in flavor except `empty` is a chain of calls
under the bindings of the flavor. -/
theorem C86_presets {consume : Bool} {helpers : List TT} (hh : NoDollars helpers) (hp : PathForm helpers)
    {ft : PresetFeatures} {q : List String} {f : Flavor}
    (hf : Reaches (presetFlavors consume helpers ft) q f) (he : q ≠ ["empty"]) :
    ChainMethod (fun k => f.settings.bindings.get? k) False f.settings.method := by
  obtain ⟨doc, h1, h2, -, h3, ⟨c, h4⟩, -⟩ := preset_rows hh hf
  rw [h4]
  obtain ⟨g1, g2⟩ := preset_heads h1 (by rw [h2]; exact he)
  rw [h2] at g1 g2
  refine preset_chain hp g1 (fun hl => ?_) c
  obtain ⟨l, hl⟩ := g2 hl
  obtain ⟨v, p, h5, -⟩ := h3.level l hl
  simp [h5, AMap.get?]


theorem stack_root {env : Env} {s : Settings} {up : List Data} (h : ∀ d ∈ up, ∀ a ∈ d.seen, methodOf env a = none) :
    methodStack env s up = [s.method] := by
  induction up with
  | nil => rfl
  | cons d up ih =>
    simp only [methodStack]
    rw [lastSet_eq_none (h d (by simp)), ih fun d' hd' => h d' (by simp [hd'])]
    rfl

theorem binding_kept {env : Env} {s : Settings} {up : List Data} {k : String} (h : s.bindings.get? k ≠ none) :
    bindingAt env s k up ≠ none := by
  rw [bindingAt]
  cases lastSet (bindingOf env k) (attrsOver up) <;> simp [h]

theorem seen_of_chain {i : Item} {Q : Attr → Prop} (h : ∀ p n, i.tree.sub p = some n → ∀ a ∈ n.data.seen, Q a)
    {p : List Nat} {up : List Data} (hu : i.chain p = some up) : ∀ d ∈ up, ∀ a ∈ d.seen, Q a := by
  intro d hd
  rcases chain_mem hu hd with h' | ⟨q, n, h1, rfl⟩
  · simp at h'
  · exact h q n h1

/-- C86 for the built-in flavors.  With a parser that reads chains of calls, under any
built-in flavor except `empty`, an item whose attributes are well-formed and do not change the
method expands if and only if nothing that is to be hooked is a cast, an open range, or another
expression that cannot carry a method call. -/
theorem C86_builtin_expands_iff {env : Env} {args : List Meta} {s : Settings} {i : Item}
    {helpers : List TT} {doc : PresetDoc} (hb : Builtin env args helpers doc) (he : doc.path ≠ ["empty"])
    (hp : PathForm helpers) (hread : ReadsChains env)
    (hs : rootSettings env args = .ok s) (hsrc : i.IsSource)
    (hok : ∀ p n, i.tree.sub p = some n → ∀ a ∈ n.data.seen, AttrOk env a ∧ methodOf env a = none) :
    (∃ r, hooqImpls env args i = .ok r) ↔
      ¬ ∃ p n up, i.tree.sub p = some n ∧ i.chain p = some (n.data :: up) ∧
        reached env s (n.data :: up) = true ∧ Blocked env s n up := by
  refine C86_expands_iff hs (hb.nodup hs) hsrc hread fun p d up hu _ => ?_
  have hseen := seen_of_chain hok hu
  refine ⟨fun a ha => (hseen d (by simp) a ha).1, fun _ => ?_⟩
  rw [stack_root fun d' hd' a ha => (hseen d' hd' a ha).2]
  obtain ⟨c, hm⟩ := hb.method hs
  obtain ⟨f, h1, ⟨-, -, -, -, -, -, e⟩, -⟩ := hb.settings hs
  obtain ⟨g1, g2⟩ := preset_heads hb.row he
  refine hm ▸ preset_chain hp g1 (fun hl => binding_kept ?_) c
  obtain ⟨l, hl⟩ := g2 hl
  obtain ⟨v, q, h5, -⟩ := h1.level l hl
  simp [e, h5, AMap.get?]

/-- C86 for the flavor `empty`: an item whose attributes are well-formed and do not switch a
kind of hook on always expands. -/
theorem C86_empty_expands {env : Env} {args : List Meta} {s : Settings} {i : Item}
    {helpers : List TT} {doc : PresetDoc} (hb : Builtin env args helpers doc) (he : doc.path = ["empty"])
    (hs : rootSettings env args = .ok s) (hsrc : i.IsSource)
    (hok : ∀ p n, i.tree.sub p = some n → ∀ a ∈ n.data.seen, AttrOk env a ∧ targetsOf env a = none) :
    ∃ r, hooqImpls env args i = .ok r := by
  have off : ∀ p up, i.chain p = some up → ∀ k, hookedAt env s up k = false := by
    intro p up hu k
    have hseen := seen_of_chain hok hu
    obtain ⟨f, h1, ⟨e, -⟩, -⟩ := hb.settings hs
    have ht := h1.targets
    rw [if_pos he, ← e] at ht
    have hn : lastSet (targetsOf env) (attrsOver up) = none := by
      refine lastSet_eq_none fun a ha => ?_
      simp only [attrsOver, List.mem_flatMap, List.mem_reverse] at ha
      obtain ⟨d, h2, h3⟩ := ha
      exact (hseen d h2 a h3).2
    rw [hookedAt, targetsAt, hn, Option.getD_none, ht]
    cases k <;> simp [Targets.has]
  refine (C61_expands_iff hs (hb.nodup hs) hsrc fun p d up hu _ => ⟨fun a ha => ?_, ?_⟩).2 ?_
  · exact (seen_of_chain hok hu d (by simp) a ha).1
  · rintro ⟨k, hk⟩
    rw [off p _ hu k] at hk
    cases hk
  · rintro ⟨p, n, up, -, hu, -, hbl⟩
    cases hbl with
    | question q k _ _ h => rw [off p _ hu] at h; cases h
    | ret k _ _ h => rw [off p _ hu] at h; cases h
    | tail tk _ _ h => rw [off p _ hu] at h; cases h

/-! ## Witnesses -/

section
open Ex
set_option maxRecDepth 10000

open Classical in
/-- A parser that reads chains of calls and nothing else. -/
noncomputable def Ex.strict : Env :=
  { env with insertRear := fun ts => if Form emitted .trail ts then some .whole else none }

theorem Ex.strict_reads : ReadsChains strict := fun _ _ h => if_pos h

theorem Ex.strict_builtin : Builtin strict [] [tkId "helpers"] presetDocs[0] := by
  refine ⟨by simp [presetDocs], rfl, by simp [NoDollars, TT.NoDollar, tkId], ?_⟩
  have h : Reaches (presetFlavors false [tkId "helpers"] ⟨true, true, true, true⟩) ["default"] _ :=
    (inner_iff (uniq_presets _ _ _) _ _).1 rfl
  exact ⟨_, false, ⟨true, true, true, true⟩, _, rfl, uniq_presets _ _ _, h, h⟩

theorem Ex.plain_ok {i : Item} (h : i.tree.allNodes (fun n => !n.built && n.data.attrs.isEmpty) = true) :
    i.IsSource ∧ ∀ p n, i.tree.sub p = some n → ∀ a ∈ n.data.seen, AttrOk strict a ∧ methodOf strict a = none := by
  refine ⟨fun p n hs => ?_, fun p n hs a ha => ?_⟩
  · have := allNodes_sub h hs
    simp only [Bool.and_eq_true, Bool.not_eq_true'] at this
    exact this.1
  · have := allNodes_sub h hs
    simp only [Bool.and_eq_true, List.isEmpty_iff] at this
    have ha := seen_sub ha
    rw [this.2] at ha
    simp at ha

/-- Both sides of `C86_builtin_expands_iff` occur under this parser: `Ex.castItem` fails because
of `return x as T`, and an item with that cast elsewhere expands. -/
example : ¬ (∃ r, hooqImpls strict [] castItem = .ok r) ∧ ∃ r, hooqImpls strict [] castLocal = .ok r := by
  obtain ⟨a1, a2⟩ := plain_ok (i := castItem) rfl
  obtain ⟨b1, b2⟩ := plain_ok (i := castLocal) rfl
  refine ⟨fun h => ?_, ?_⟩
  · refine (C86_builtin_expands_iff strict_builtin (by decide) (.name _ (by decide)) strict_reads rfl a1 a2).1 h ?_
    exact ⟨[0], _, _, rfl, rfl, rfl, .ret _ rfl rfl rfl rfl rfl⟩
  · refine (C86_builtin_expands_iff strict_builtin (by decide) (.name _ (by decide)) strict_reads rfl b1 b2).2 ?_
    rintro ⟨p, n, up, h1, -, -, hb⟩
    have hf : castLocal.tree.allNodes (fun n => (n.data.edge.tail.isNone || n.rear != .stuck) &&
        match n.data.tag with
        | .question _ _ => n.kids.all fun k => k.rear != .stuck
        | .ret => n.kids.all fun k => k.rear != .stuck
        | _ => true) = true := rfl
    have hn := allNodes_sub hf h1
    cases hb with
    | question q k h2 h3 _ h4 => simp [h2, h3, h4] at hn
    | ret k h2 h3 _ _ h4 => simp [h2, h3, h4] at hn
    | tail tk h2 _ _ _ h4 => simp [h2, h4] at hn

/-- Under `empty` even `return x as T` does not matter. -/
example : ∃ r, hooqImpls strict [.path (Path.ofIdents ["empty"])] castItem = .ok r := by
  have hb : Builtin strict [.path (Path.ofIdents ["empty"])] [tkId "helpers"] presetDocs[1] := by
    refine ⟨by simp [presetDocs], rfl, by simp [NoDollars, TT.NoDollar, tkId], ?_⟩
    have h : Reaches (presetFlavors false [tkId "helpers"] ⟨true, true, true, true⟩) ["empty"] _ :=
      (inner_iff (uniq_presets _ _ _) _ _).1 rfl
    exact ⟨_, false, ⟨true, true, true, true⟩, _, rfl, uniq_presets _ _ _, h, h⟩
  refine C86_empty_expands hb rfl rfl (plain_ok (i := castItem) rfl).1 fun p n hs a ha => ?_
  have := allNodes_sub (t := castItem.tree) (f := fun n => n.data.attrs.isEmpty) rfl hs
  simp only [List.isEmpty_iff] at this
  have ha := seen_sub ha
  rw [this] at ha
  simp at ha

/-- The hook on the operand of `return Err(y?)`, by `C86_form`. -/
example : ∃ i' n' m, hooqImpls env [] castLocal = .ok ([], i') ∧ i'.tree.sub [1, 0] = some n' ∧
    n'.marks = [m] ∧ m.1.kind = .ret ∧ Form emitted .trail m.1.toks := by
  obtain ⟨n', h1, h2⟩ := C86_form (env := env) (args := []) (s := settings) (i := castLocal) (p := [1, 0]) rfl
    (by decide) rfl rfl rfl (fun k => by
      rw [stack_root]
      · exact preset_chain (q := ["default"]) (.name _ (by decide)) (by decide) (fun h => by simp at h) false
      · intro d hd a ha
        have hd : d.attrs = [] := by
          revert hd
          cases k <;> simp only [targetUp, List.tail_cons, List.mem_cons, List.not_mem_nil, or_false]
          · rintro (rfl | rfl) <;> rfl
          · rintro (rfl | rfl) <;> rfl
          · rintro (rfl | rfl | rfl) <;> rfl
        have ha := seen_sub ha
        rw [hd] at ha
        simp at ha)
  obtain rfl := Option.some.inj h1
  exact ⟨_, _, _, rfl, rfl, rfl, rfl, (h2 _ (by exact List.mem_cons_self ..)).2⟩

/-- `.a($b).$so_far` over `.c(|e| { let x = $line; f!($expr); $bindings })?`. -/
def Ex.stacked : List Method :=
  [.insert .callSite [tkId "a", tkParen (tkVar "b"), tkP '.', tkP '$', tkId "so_far"] false,
   .insert .callSite [tkId "c", tkParen [tkP '|', tkId "e", tkP '|', tkBrace (tkLet "x" (tkVar "line") ++
      ([tkId "f", tkP '!', tkParen (tkVar "expr"), tkP ';'] ++ tkVar "bindings"))], tkP '?'] false]

example {b : String → Option Value} (hb : b "b" ≠ none) : ChainStack b stacked := by
  refine ⟨⟨_, _, _, rfl, ?_⟩, ⟨_, _, _, rfl, ?_⟩⟩
  · refine .join (t := [_, _, _]) (.method _ _ _ (memberName_of (by decide)) (.oneArg (.piece (isVar_tk (.inr ⟨?_, hb⟩)))))
      (.more _ ⟨trivial, isVar_tk (named_of (l := ["so_far", "sofar"]) (by decide) (by decide))⟩)
    rintro m ⟨l, hl, hx⟩
    simp only [metaVarNames, List.mem_cons, Prod.mk.injEq, List.not_mem_nil, or_false] at hl
    rcases hl with ⟨-, rfl⟩ | ⟨-, rfl⟩ | ⟨-, rfl⟩ | ⟨-, rfl⟩ | ⟨-, rfl⟩ | ⟨-, rfl⟩ | ⟨-, rfl⟩ | ⟨-, rfl⟩ | ⟨-, rfl⟩ |
      ⟨-, rfl⟩ | ⟨-, rfl⟩ | ⟨-, rfl⟩ <;> revert hx <;> decide
  · refine .join (t := [_, _, _]) (.method _ _ _ (memberName_of (by decide)) (.oneArg (.closure1 _ _ _ (memberName_of (by decide))
      (.block _ (form_let (memberName_of (by decide)) ?_ (.semi (e := [_, _, _]) _ (.mac (p := [_]) _ _ (.name _ (by decide)) (.inl rfl) ?_)
        (.lastPiece (isVar_tk ⟨.bindings, by decide, by decide, by decide, ?_⟩)))))))) (.question _)
    · exact known_meta .line (by decide) (named_of (l := ["line"]) (by decide) (by decide))
    · refine ⟨fun _ _ => ⟨⟨"expr", ⟨_, rfl⟩, known_meta .expr (by decide) (named_of (l := ["expr"]) (by decide) (by decide))⟩, trivial⟩,
        fun h => absurd rfl (h _)⟩
    · exact named_of (l := ["bindings", "vars"]) (by decide) (by decide)

end

end Hooq
