import Verif.Proof.Batch
import Verif.Proof.Foreign
import Verif.Proof.Reread
import Verif.Props.Count
import Verif.Props.Errors
import Verif.Props.Fixture
import Verif.Props.Laws

/-!
# The same code under the same settings (C68)
-/

namespace Hooq

theorem plain_of_source : ∀ {t : RTree}, (∀ p n, t.sub p = some n → n.built = false) → t.plain := by
  intro t
  have key : ∀ n, ∀ t : RTree, sizeOf t < n → (∀ p n, t.sub p = some n → n.built = false) → t.plain := by
    intro n
    induction n with
    | zero => intro t ht; omega
    | succ n ih =>
      rintro ⟨d, ms, ks⟩ ht h
      have h0 := h [] _ rfl
      simp only [RTree.built, Bool.or_eq_false_iff, Bool.not_eq_false', List.isEmpty_iff] at h0
      have hks : ∀ l : List RTree, (∀ k ∈ l, k.plain) → RTree.plains l := by
        intro l hl
        induction l with
        | nil => trivial
        | cons k l ihl => exact ⟨hl k (by simp), ihl fun x hx => hl x (by simp [hx])⟩
      refine ⟨h0.1, hks ks fun k hk => ?_⟩
      have hsz := List.sizeOf_lt_of_mem hk
      simp only [RTree.mk.sizeOf_spec] at ht
      refine ih k (by omega) fun p m hm => ?_
      obtain ⟨i, hi⟩ := List.mem_iff_getElem?.1 hk
      exact h (i :: p) m (by simp [RTree.sub, hi, hm])
  exact key _ t (Nat.lt_succ_self _)

theorem source_sub {t n : RTree} {p : List Nat} (h : ∀ p n, t.sub p = some n → n.built = false)
    (hn : t.sub p = some n) : ∀ q m, n.sub q = some m → m.built = false := by
  intro q m hm
  apply h (p ++ q)
  induction p generalizing t with
  | nil =>
    cases t
    simp only [RTree.sub, Option.some.injEq] at hn
    subst hn
    exact hm
  | cons i p ih =>
    obtain ⟨d, ms, ks⟩ := t
    simp only [RTree.sub] at hn
    simp only [List.cons_append, RTree.sub]
    cases hk : ks[i]? with
    | none => simp [hk] at hn
    | some k =>
      simp only [hk] at hn
      exact ih (fun q x hx => h (i :: q) x (by simp [RTree.sub, hk, hx])) hn

/-- A node without the hook of an enclosing `?` or `return` that sits on it. -/
def RTree.own (t : RTree) : RTree := .mk t.data t.tailMarks t.kids

theorem like_tailMarks {b b' : Counter} {t t' : RTree} (h : RTree.Like b b' t t') :
    RTree.Like b b' t.own t'.own := by
  obtain ⟨d, ms, ks⟩ := t
  obtain ⟨d', ms', ks'⟩ := t'
  simp only [RTree.Like] at h
  simp only [RTree.own, RTree.Like, RTree.tailMarks, RTree.marks, RTree.data, RTree.kids]
  refine ⟨h.1, ?_, h.2.2⟩
  have := h.2.1
  clear h
  induction this with
  | nil => exact .nil
  | cons h1 _ ih =>
    simp only [List.filter_cons, h1.1.kind]
    split
    · exact .cons h1 ih
    · exact ih

theorem moved_refl (b b' : Counter) : Counter.Moved b b' b b' := fun _ => ⟨0, rfl, rfl⟩

/-- C68.  What an expansion makes of a piece of code depends only on the code, the
settings in force, and the function around it: the same code in two places where these
agree is expanded to the same code, up to the running numbers, which differ by the same
amount for all hooks of a kind.  The root arguments, the items, the places and the
attributes that make up the settings may be different. -/
theorem C68_same_code {env : Env} (hE : env.CountBlind) {args args2 : List Meta} {s s2 : Settings}
    {i i2 o o2 : Item} {uses uses2 : List Path} (hs : rootSettings env args = .ok s)
    (hs2 : rootSettings env args2 = .ok s2) (hb : s.bindings.keys.Nodup) (hb2 : s2.bindings.keys.Nodup)
    (hsrc : i.IsSource) (h : hooqImpls env args i = .ok (uses, o))
    (h2 : hooqImpls env args2 i2 = .ok (uses2, o2)) {p p2 : List Nat} {n : RTree} {up up2 : List Data}
    (hn : i.tree.sub p = some n) (hn2 : i2.tree.sub p2 = some n)
    (hu : i.chain p = some (n.data :: up)) (hu2 : i2.chain p2 = some (n.data :: up2))
    (hr : reached env s (n.data :: up) = true) (hr2 : reached env s2 (n.data :: up2) = true)
    (he : SameInForce env s up s2 up2) :
    ∃ n' n2' b b2, o.tree.sub p = some n' ∧ o2.tree.sub p2 = some n2' ∧
      RTree.Recount b b2 n'.own n2'.own := by
  obtain ⟨c', hw⟩ := expansion hs h
  obtain ⟨c2', hw2⟩ := expansion hs2 h2
  obtain ⟨m, m0, m', upn, ctx, c1, c3, a1, a2, a3, a4, a5, a6, a7, a8⟩ :=
    gwalk_local (agrees_new env s) hw hu hr
  obtain ⟨k, k0, k', upk, ctx2, d1, d3, b1, b2, b3, b4, b5, b6, b7, b8⟩ :=
    gwalk_local (agrees_new env s2) hw2 hu2 hr2
  rw [hn] at a1
  rw [hn2] at b1
  obtain rfl := Option.some.inj a1
  obtain rfl := Option.some.inj b1
  obtain rfl := (List.cons.inj a3).2
  obtain rfl := (List.cons.inj b3).2
  have hal := agrees_alike hb hb2 a4 b4 he
  have hp : n.plain := plain_of_source (source_sub hsrc hn)
  have := gwalk_alike hE c1 d1 hal n hp c1 d1 (moved_refl _ _)
  rw [a5, b5] at this
  refine ⟨m', k', c1, d1, a2, b2, ?_⟩
  have e1 : m'.own = m0.own := by simp only [RTree.own, a6, a7, a8]
  have e2 : k'.own = k0.own := by simp only [RTree.own, b6, b7, b8]
  rw [e1, e2]
  exact like_recount (like_tailMarks this.1)

/-! ## Batch application -/

theorem CleanUp.stack {env : Env} {s : Settings} {up : List Data} (h : CleanUp up) :
    methodStack env s up = [s.method] := by
  induction up with
  | nil => rfl
  | cons d up ih =>
    simp only [methodStack]
    rw [lastSet_eq_none fun a ha => (inert_nothing (h d (by simp) a ha)).1, ih h.tail]
    rfl

theorem CleanUp.binding {env : Env} {s : Settings} {up : List Data} (h : CleanUp up) (k : String) :
    bindingAt env s k up = s.bindings.get? k := by
  rw [bindingAt, lastSet_eq_none fun a ha => (inert_none (h.over a ha)).2.2 k]
  rfl

theorem CleanUp.notSkippedUp {up : List Data} (h : CleanUp up) (l : Bool) : skippedUp l up = false := by
  induction up generalizing l with
  | nil => rfl
  | cons d up ih =>
    have h1 : d.seen.any Meta.isSkipAll = false := by
      rw [List.any_eq_false]; intro a ha; simp [(inert_noskip (h d (by simp) a ha)).2]
    have h2 : d.seen.any Meta.isSkip = false := by
      rw [List.any_eq_false]; intro a ha; simp [(inert_noskip (h d (by simp) a ha)).1]
    simp [skippedUp, h1, h2, ih h.tail]

theorem clean_settings {env : Env} {s : Settings} {up : List Data} (h : CleanUp up)
    (hf : ∀ d ∈ up, d.edge.fn = none) : SameInForce env s up s [] := by
  have hi : innermostFn up = none := by
    rw [innermostFn, List.findSome?_eq_none_iff]; exact hf
  have he : enclosingFn up = none := by
    rw [enclosingFn, List.findSome?_eq_none_iff]; intro d hd; rw [hf d hd]
  have h0 : CleanUp ([] : List Data) := by intro d hd; simp at hd
  constructor
  · rw [h.stack, h0.stack]
  · rw [targetsAt, targetsAt, lastSet_eq_none fun a ha => (inert_nothing (h.over a ha)).2.1,
      lastSet_eq_none fun a ha => (inert_nothing (h0.over a ha)).2.1]
  · rw [h.tailIdents, h0.tailIdents]
  · rw [h.ignore, h0.ignore]
  · rw [h.resultTypes, h0.resultTypes]
  · rw [h.macros, h0.macros]
  · intro k; rw [h.binding, h0.binding]
  · rw [h.notSkipped, h0.notSkipped]
  · rw [h.notSkippedUp, h0.notSkippedUp]
  · rw [hi]; rfl
  · rw [he]; rfl

/-- C68.  An item inside of an annotated item, with no inert attribute and no function
around it, is expanded just as if it was itself annotated with the same arguments:
that expansion succeeds as well and has the same result up to the running numbers. -/
theorem C68_alone {env : Env} (hE : env.CountBlind) {args : List Meta} {s : Settings}
    {i o j : Item} {uses : List Path} (hs : rootSettings env args = .ok s)
    (hb : s.bindings.keys.Nodup) (hsrc : i.IsSource) (h : hooqImpls env args i = .ok (uses, o))
    {p : List Nat} {up : List Data} (hn : i.tree.sub p = some j.tree)
    (hu : i.chain p = some (j.tree.data :: up)) (hr : reached env s (j.tree.data :: up) = true)
    (hc : ∀ d ∈ up, ∀ a ∈ d.seen, a.isInert = false) (hf : ∀ d ∈ up, d.edge.fn = none) :
    ∃ n' j' b, hooqImpls env args j = .ok (uses, j') ∧ o.tree.sub p = some n' ∧
      RTree.Recount b {} n'.own j'.tree.own := by
  obtain ⟨c', hw⟩ := expansion hs h
  obtain ⟨m, m0, m', upn, ctx, c1, c3, a1, a2, a3, a4, a5, a6, a7, a8⟩ :=
    gwalk_local (agrees_new env s) hw hu hr
  rw [hn] at a1
  obtain rfl := Option.some.inj a1
  obtain rfl := (List.cons.inj a3).2
  have hal := agrees_alike hb hb a4 (agrees_new env s) (clean_settings hc hf)
  have hp : j.tree.plain := plain_of_source (source_sub hsrc hn)
  have hsim := gwalk_alike hE c1 {} hal j.tree hp c1 {} (moved_refl _ _)
  rw [a5, refItem env (Ctx.new s) {} rfl rfl j, enter_empty] at hsim
  cases hj : walkItem env (Ctx.new s) j {} with
  | error e =>
    have he : (viewItem {} <$> walkItem env (Ctx.new s) j) {} = .error e := by
      simp [Functor.map, StateT.map, bind, Except.bind, hj]
    rw [he] at hsim
    exact hsim.elim
  | ok r =>
    obtain ⟨j', cj⟩ := r
    rw [W.map_ok_of hj] at hsim
    have hu' : uses = s.traitUses := by
      simp only [hooqImpls, hs] at h
      obtain ⟨_, h0, h⟩ := except_bind_ok h
      obtain rfl := Except.ok.inj h0
      obtain ⟨_, _, h2⟩ := except_bind_ok h
      simp only [Except.ok.injEq, Prod.mk.injEq] at h2
      exact h2.1.symm
    refine ⟨m', j', c1, ?_, a2, ?_⟩
    · simp [hooqImpls, hs, bind, Except.bind, hj, hu']
    · have e1 : m'.own = m0.own := by simp only [RTree.own, a6, a7, a8]
      rw [e1]
      exact like_recount (like_tailMarks hsim.1)

/-- The items `js'` are the items `js` expanded one by one, with numbers that start
after `b` and continue from one item to the next. -/
inductive Batched (env : Env) (args : List Meta) (s : Settings) (uses : List Path) :
    Counter → List Item → List Item → Prop
  | nil (b : Counter) : Batched env args s uses b [] []
  | cons {b b1 : Counter} {j j' j2 : Item} {js js' : List Item} :
      hooqImpls env args j = .ok (uses, j2) → RTree.Recount b {} j'.tree j2.tree →
      (∀ k, b1.get k = b.get k + (numberedTargets env s j j2 k).length) →
      Batched env args s uses b1 js js' → Batched env args s uses b (j :: js) (j' :: js')

theorem impls_ok {env : Env} {args : List Meta} {s : Settings} {j j' : Item} {c : Counter}
    (hs : rootSettings env args = .ok s) (h : walkItem env (Ctx.new s) j {} = .ok (j', c)) :
    hooqImpls env args j = .ok (s.traitUses, j') := by
  simp [hooqImpls, hs, bind, Except.bind, h]

theorem impls_error {env : Env} {args : List Meta} {s : Settings} {j : Item} {e : Err}
    (hs : rootSettings env args = .ok s) (h : walkItem env (Ctx.new s) j {} = .error e) :
    hooqImpls env args j = .error e := by
  simp [hooqImpls, hs, bind, Except.bind, h]

theorem numbers_used {env : Env} {s : Settings} {j j' : Item} {c : Counter}
    (h : walkItem env (Ctx.new s) j {} = .ok (j', c)) (k : Kind) :
    c.get k = (numberedTargets env s j j' k).length := by
  have hw : gwalk env (Ctx.new s) j.tree {} = .ok (j'.tree, c) := by
    rw [refItem env (Ctx.new s) {} rfl rfl j, enter_empty]
    exact W.map_ok_of h
  have := gwalk_numbered j.tree (wfItem {} j) (agrees_new env s)
    (by intro hv; rw [reached_cons]; simp [hv, reached]) hw k
  have h1 := this.1
  have h0 : (({} : Counter)).get k = 0 := by cases k <;> rfl
  rw [h0, Nat.zero_add] at h1
  exact h1

theorem alike_refl {c : Ctx} (h : c.bindings.keys.Nodup) : c.Alike c :=
  ⟨rfl, rfl, rfl, rfl, rfl, rfl, ⟨fun _ => rfl, h, h⟩, rfl, rfl, rfl⟩

theorem walk_apart {env : Env} (hE : env.CountBlind) {s : Settings} (hb : s.bindings.keys.Nodup)
    {j : Item} (hsrc : j.IsSource) (c : Counter) :
    ExceptRel (fun r r' => RTree.Recount c {} r.1.tree r'.1.tree ∧ Counter.Moved c {} r.2 r'.2)
      (walkItem env (Ctx.new s) j c) (walkItem env (Ctx.new s) j {}) := by
  have hsim := gwalk_alike hE c {} (alike_refl (c := Ctx.new s) hb) j.tree (plain_of_source hsrc) c {}
    (moved_refl _ _)
  rw [refItem env (Ctx.new s) {} rfl rfl j, enter_empty] at hsim
  simp only [Functor.map, StateT.map, bind, Except.bind, pure, Except.pure] at hsim
  revert hsim
  cases walkItem env (Ctx.new s) j c <;> cases walkItem env (Ctx.new s) j {} <;>
    simp only [ExceptRel] <;> intro hsim
  · exact hsim
  · exact hsim
  · exact hsim
  · exact ⟨like_recount hsim.1, hsim.2⟩

theorem items_apart {env : Env} (hE : env.CountBlind) {args : List Meta} {s : Settings}
    (hs : rootSettings env args = .ok s) (hb : s.bindings.keys.Nodup) {items : List Item}
    (hsrc : ∀ j ∈ items, j.IsSource) (c : Counter) :
    (∀ items' c', walkItems env (Ctx.new s) items c = .ok (items', c') →
      Batched env args s s.traitUses c items items') ∧
    (∀ e, walkItems env (Ctx.new s) items c = .error e → ∃ l j r, items = l ++ j :: r ∧
      (∀ x ∈ l, ∃ y, hooqImpls env args x = .ok y) ∧ hooqImpls env args j = .error e) := by
  induction items generalizing c with
  | nil =>
    constructor
    · intro items' c' h
      simp only [walkItems] at h
      obtain ⟨rfl, rfl⟩ := W.pure_ok h
      exact .nil _
    · intro e h
      exact (W.pure_err h).elim
  | cons j js ih =>
    have hj := walk_apart hE hb (hsrc j (by simp)) c
    have ihs := ih fun x hx => hsrc x (by simp [hx])
    constructor
    · intro items' c' h
      simp only [walkItems] at h
      obtain ⟨j', c1, h1, h⟩ := W.bind_ok h
      obtain ⟨js', c2, h2, h⟩ := W.bind_ok h
      obtain ⟨rfl, rfl⟩ := W.pure_ok h
      rw [h1] at hj
      cases h3 : walkItem env (Ctx.new s) j {} with
      | error e => rw [h3] at hj; exact hj.elim
      | ok r =>
        obtain ⟨j2, c3⟩ := r
        rw [h3] at hj
        refine .cons (impls_ok hs h3) hj.1 (b1 := c1) (fun k => ?_) ((ihs c1).1 _ _ h2)
        obtain ⟨x, e1, e2⟩ := hj.2 k
        have h0 : (({} : Counter)).get k = 0 := by cases k <;> rfl
        rw [← numbers_used h3 k]
        simp only [h0, Nat.zero_add] at e2
        rw [e1, e2]
    · intro e h
      simp only [walkItems] at h
      rcases W.bind_err h with h1 | ⟨j', c1, h1, h⟩
      · rw [h1] at hj
        cases h3 : walkItem env (Ctx.new s) j {} with
        | ok r => rw [h3] at hj; exact hj.elim
        | error e' =>
          rw [h3] at hj
          have hj : e = e' := hj
          subst hj
          exact ⟨[], j, js, rfl, by simp, impls_error hs h3⟩
      · rcases W.bind_err h with h2 | ⟨js', c2, h2, h⟩
        · obtain ⟨l, x, r, rfl, g1, g2⟩ := (ihs c1).2 e h2
          refine ⟨j :: l, x, r, rfl, fun y hy => ?_, g2⟩
          rcases List.mem_cons.1 hy with rfl | hy
          · rw [h1] at hj
            cases h3 : walkItem env (Ctx.new s) y {} with
            | error e' => rw [h3] at hj; exact hj.elim
            | ok r => exact ⟨_, impls_ok hs h3⟩
          · exact g1 y hy
        · exact (W.pure_err h).elim

theorem extract_foreign (env : Env) {attrs : List Attr} (h : ∀ a ∈ attrs, a.isInert = false) :
    extract env attrs = .ok ({}, attrs) := by
  suffices this : ∀ acc, extractFrom env acc attrs = .ok (acc, attrs) from this {}
  intro acc
  induction attrs with
  | nil => rfl
  | cons a l ih =>
    simp only [extractFrom, inertStep_foreign env acc (h a (by simp)), bind, Except.bind,
      ih fun b hb => h b (by simp [hb])]
    rfl

theorem update_nothing (c : Ctx) : c.update {} = c := by
  simp [Ctx.update, Field.fromParent, Inert.skipStatus]

theorem viewItems_get (items : List Item) (i : Nat) : (viewItems items)[i]? = items[i]?.map (viewItem {}) := by
  induction items generalizing i with
  | nil => simp [viewItems]
  | cons j js ih => cases i <;> simp [viewItems, ih]

/-- C68.  Annotating a module is annotating each of its items with the same arguments,
except that the numbers continue from item to item: the expansion fails just with the
error of the first item whose own expansion fails, and otherwise the module has the
same attributes and its items are the items' own expansions, renumbered. -/
theorem C68_module {env : Env} (hE : env.CountBlind) {args : List Meta} {s : Settings}
    (hs : rootSettings env args = .ok s) (hb : s.bindings.keys.Nodup) {attrs : List Attr} {name : String}
    {items : List Item} (ha : ∀ a ∈ attrs, a.isInert = false)
    (hsrc : (Item.mod_ attrs name items).IsSource) :
    (∀ uses o, hooqImpls env args (.mod_ attrs name items) = .ok (uses, o) →
      ∃ items', o = .mod_ attrs name items' ∧ Batched env args s uses {} items items') ∧
    (∀ e, hooqImpls env args (.mod_ attrs name items) = .error e → ∃ l j r, items = l ++ j :: r ∧
      (∀ x ∈ l, ∃ y, hooqImpls env args x = .ok y) ∧ hooqImpls env args j = .error e) := by
  have hi : ∀ j ∈ items, j.IsSource := by
    intro j hj
    obtain ⟨i, hi⟩ := List.mem_iff_getElem?.1 hj
    exact source_sub (p := [i]) hsrc (by
      simp only [Item.tree, viewItem, hnode, RTree.sub, viewItems_get, hi, Option.map_some])
  have hw : walkItem env (Ctx.new s) (.mod_ attrs name items)
      = (do let items' ← walkItems env (Ctx.new s) items; pure (.mod_ attrs name items')) := by
    simp only [walkItem, handleAttrs, extract_foreign env ha, bind, Except.bind, update_nothing]
    rfl
  have hx := items_apart hE (args := args) hs hb hi {}
  constructor
  · intro uses o h
    simp only [hooqImpls, hs] at h
    obtain ⟨_, h0, h⟩ := except_bind_ok h
    obtain rfl := Except.ok.inj h0
    obtain ⟨⟨o', c⟩, h1, h2⟩ := except_bind_ok h
    simp only [Except.ok.injEq, Prod.mk.injEq] at h2
    obtain ⟨rfl, rfl⟩ := h2
    rw [hw] at h1
    obtain ⟨items', c1, h3, h4⟩ := W.bind_ok h1
    obtain ⟨rfl, rfl⟩ := W.pure_ok h4
    exact ⟨items', rfl, hx.1 _ _ h3⟩
  · intro e h
    simp only [hooqImpls, hs] at h
    have hok : ∀ f : Settings → Except Err (List Path × Item), (Except.ok s >>= f) = f s := fun _ => rfl
    rw [hok, hw] at h
    apply hx.2 e
    cases h3 : walkItems env (Ctx.new s) items {} with
    | error e' =>
      rw [show ((do let items' ← walkItems env (Ctx.new s) items; pure (Item.mod_ attrs name items')) :
        W Item) {} = .error e' by simp [bind, StateT.bind, Except.bind, h3]] at h
      simpa [bind, Except.bind] using h
    | ok r =>
      rw [W.bind_of_ok h3] at h
      simp [bind, Except.bind, pure, StateT.pure, Except.pure] at h

/-! ## Witnesses -/

section
open Ex
set_option maxRecDepth 10000

theorem Ex.blind : env.CountBlind := ⟨fun _ _ _ _ _ => rfl, fun _ _ _ _ _ _ => rfl⟩

/-- `fn g() -> Result { #[hooq::method(.a($count))] x?; y?; Err(z) }` -/
def Ex.tallied : Item :=
  .fn [] { ident := "g", output := result, text := "fn g () -> Result" }
    [.expr (quest [.list (hooqPath "method") [tkP '.', tkId "a", tkParen (tkVar "count")]] (var "x" 7) 7) true,
     .expr (quest [] (var "y" 8) 8) true,
     .expr (call "Err" [var "z" 9] 9) false]

/-- `#[doc] mod m { fn f() -> Result { .. }  fn g() -> Result { .. } }` -/
def Ex.batch : Item := .mod_ [.path (.ofIdents ["doc"])] "m" [Ex.castLocal, Ex.tallied]

/-- The hypotheses of `C68_module` can be met, the expansion succeeds, and the numbers
continue: the first `?` of the second function has number 2 in the module and 1 alone,
also in its text. -/
example : Ex.batch.IsSource ∧ settings.bindings.keys.Nodup ∧ ∃ o o2 : Item,
    hooqImpls env [] Ex.batch = .ok ([], o) ∧ hooqImpls env [] Ex.tallied = .ok ([], o2) ∧
    (hooksOf o.tree .question [1, 0]).map (fun hk => (hk.count, hk.toks))
      = [(2, [.punct '.' .callSite, .ident "a" (sp 7 9),
          .group .paren [.lit (.str (countText 2 .question)) .callSite] (sp 7 9)])] ∧
    (hooksOf o2.tree .question [0]).map (fun hk => (hk.count, hk.toks))
      = [(1, [.punct '.' .callSite, .ident "a" (sp 7 9),
          .group .paren [.lit (.str (countText 1 .question)) .callSite] (sp 7 9)])] := by
  refine ⟨fun p n hs => ?_, by decide, _, _, rfl, rfl, ?_, ?_⟩
  · have := allNodes_sub (t := Ex.batch.tree) (f := fun n => !n.built) rfl hs
    simpa using this
  · rfl
  · rfl

/-- A module fails with the error of its first failing item. -/
example : hooqImpls env [] (.mod_ [] "m" [Ex.castLocal, Ex.castItem]) = .error .panic ∧
    hooqImpls env [] Ex.castItem = .error .panic := ⟨rfl, rfl⟩

/-- `.b()` -/
def Ex.bAttr : Attr := .list (hooqPath "method") [tkP '.', tkId "b", tkParen []]

/-- A function in a module, with the method set on the module. -/
def Ex.onModule : Item := .mod_ [Ex.bAttr] "m" [Ex.castLocal, Ex.tallied]

/-- The same function, with the method set on it. -/
def Ex.onFunction : Item :=
  match Ex.tallied with
  | .fn _ sig body => .fn [Ex.bAttr] sig body
  | i => i

/-- The hypotheses of `C68_same_code` can be met: the statement `y?` of the function
with the method set on the module around and on the function itself. -/
example : ∃ n up up2 o o2, Ex.onModule.tree.sub [1, 1] = some n ∧ Ex.onFunction.tree.sub [1] = some n ∧
    Ex.onModule.chain [1, 1] = some (n.data :: up) ∧ Ex.onFunction.chain [1] = some (n.data :: up2) ∧
    reached env settings (n.data :: up) = true ∧ reached env settings (n.data :: up2) = true ∧
    hooqImpls env [] Ex.onModule = .ok ([], o) ∧ hooqImpls env [] Ex.onFunction = .ok ([], o2) ∧
    SameInForce env settings up settings up2 :=
  ⟨_, _, _, _, _, rfl, rfl, rfl, rfl, rfl, rfl, rfl, rfl,
    ⟨rfl, rfl, rfl, rfl, rfl, rfl, fun _ => rfl, rfl, rfl, rfl, rfl⟩⟩

/-- The hypotheses of `C68_alone` can be met: the second function of `Ex.batch`. -/
example : ∃ up, Ex.batch.tree.sub [1] = some Ex.tallied.tree ∧
    Ex.batch.chain [1] = some (Ex.tallied.tree.data :: up) ∧
    reached env settings (Ex.tallied.tree.data :: up) = true ∧
    (∀ d ∈ up, ∀ a ∈ d.seen, a.isInert = false) ∧ (∀ d ∈ up, d.edge.fn = none) ∧ up ≠ [] := by
  refine ⟨_, rfl, rfl, rfl, ?_, ?_, by simp⟩
  · intro d hd a ha
    simp only [List.mem_singleton] at hd
    subst hd
    simp only [Data.seen, List.mem_singleton] at ha
    subst ha
    rfl
  · intro d hd
    simp only [List.mem_singleton] at hd
    subst hd
    rfl

end

end Hooq
