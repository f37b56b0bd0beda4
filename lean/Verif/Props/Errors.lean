import Verif.Proof.Always
import Verif.Props.Erase
import Verif.Props.Root

/-!
# When an expansion fails (C18)
-/

namespace Hooq

/-- The item is source code: nothing in it was built by the macro. -/
def Item.IsSource (i : Item) : Prop := ∀ p n, i.tree.sub p = some n → n.built = false

theorem walk_tree (env : Env) (ctx : Ctx) (i : Item) (c : Counter) :
    gwalk env ctx i.tree c = (walkItem env ctx i c).map fun r => (r.1.tree, r.2) := by
  rw [refItem env ctx {} rfl rfl i, enter_empty]
  simp only [Functor.map, StateT.map, bind, Except.bind, pure, Except.pure]
  cases walkItem env ctx i c <;> rfl

/-- C18, from failure to cause.  If the expansion of source code fails, then the root
attribute is bad, or there is a position that the macro reaches at which an attribute
is malformed or a hook that is to be inserted has a template that does not expand or
does not re-parse. -/
theorem C18_failure_cause {env : Env} {args : List Meta} {i : Item} {e : Err} (hsrc : i.IsSource)
    (h : hooqImpls env args i = .error e) :
    rootSettings env args = .error e ∨
    ∃ s, rootSettings env args = .ok s ∧ (s.bindings.keys.Nodup →
      ∃ p n up, i.tree.sub p = some n ∧ i.chain p = some (n.data :: up) ∧
        reached env s (n.data :: up) = true ∧ Fails env s n up) := by
  simp only [hooqImpls] at h
  cases hs : rootSettings env args with
  | error e' => simp [hs, bind, Except.bind] at h; exact .inl (by rw [h])
  | ok s =>
    refine .inr ⟨s, rfl, fun hn => ?_⟩
    have hw : gwalk env (Ctx.new s) i.tree {} = .error e := by
      rw [walk_tree]
      simp only [hs, bind, Except.bind] at h
      cases hw : walkItem env (Ctx.new s) i {} with
      | error e' => simp [hw] at h; simp [Except.map, h]
      | ok r => simp [hw] at h
    refine gwalk_err hn i.tree hsrc (wfItem {} i) (agrees_new env s) ?_ hw
    intro hv
    rw [reached_cons, hv]; rfl

/-- C18.  Every attribute at a position that a successful expansion reaches is
well-formed. -/
theorem C18_attributes_ok {env : Env} {args : List Meta} {s : Settings} {i i' : Item}
    {uses : List Path} (hs : rootSettings env args = .ok s)
    (h : hooqImpls env args i = .ok (uses, i')) {p : List Nat} {d : Data} {up : List Data}
    (hu : i.chain p = some (d :: up)) (hr : reached env s (d :: up) = true) :
    ∀ a ∈ d.seen, AttrOk env a := by
  obtain ⟨c', hw⟩ := expansion hs h
  obtain ⟨n, n0, n', upn, ctx', c1, c2, g1, g2, g3, g4, g5, g6, g7, g8⟩ :=
    gwalk_local (agrees_new env s) hw hu hr
  obtain ⟨dn, ms, kids⟩ := n
  rw [RTree.data_mk] at g3
  obtain ⟨rfl, rfl⟩ := List.cons.inj g3
  have hv : d.edge.visit = true := by
    rw [reached_cons] at hr; simp only [Bool.and_eq_true] at hr; exact hr.1.1
  obtain ⟨hb, hd, kids', ck, t1, ct, h1, h2, h3, h4⟩ := gwalk_inv hv g5
  exact handle_ok_attrs h1

/-- C18.  A malformed attribute at a position that the macro would reach makes the
expansion fail. -/
theorem C18_malformed_fails {env : Env} {args : List Meta} {s : Settings} {i : Item}
    (hs : rootSettings env args = .ok s) {p : List Nat} {d : Data} {up : List Data}
    (hu : i.chain p = some (d :: up)) (hr : reached env s (d :: up) = true) {a : Attr}
    (ha : a ∈ d.seen) (hbad : ¬ AttrOk env a) : ∃ e, hooqImpls env args i = .error e := by
  cases h : hooqImpls env args i with
  | error e => exact ⟨e, rfl⟩
  | ok r =>
    obtain ⟨uses, i'⟩ := r
    exact absurd (C18_attributes_ok hs h hu hr a ha) hbad

/-- C18, from success: the template of a hook on a `?` expands and re-parses around
the operand in the output. -/
theorem C18_question_ok {env : Env} {args : List Meta} {s : Settings} {i i' : Item}
    {uses : List Path} (hs : rootSettings env args = .ok s) (hn : s.bindings.keys.Nodup)
    (h : hooqImpls env args i = .ok (uses, i')) {p : List Nat} {d : Data} {up : List Data}
    (hu : i.chain p = some (d :: up)) (hr : reached env s (d :: up) = true) {q : Span} {b : Bool}
    (hq : d.tag = .question q b) (hh : hookedAt env s (d :: up) .question = true) :
    ∃ m k', i'.tree.sub (p ++ [0]) = some k' ∧
      CanHook env s (d :: up) .question q m k'.bare.rear := by
  obtain ⟨c', hw⟩ := expansion hs h
  obtain ⟨n, n0, n', upn, ctx', c1, c2, g1, g2, g3, g4, g5, g6, g7, g8⟩ :=
    gwalk_local (agrees_new env s) hw hu hr
  have hnwf := WF_sub (wfItem {} i) g1
  obtain ⟨dn, ms, kids⟩ := n
  rw [RTree.data_mk] at g3
  obtain ⟨rfl, rfl⟩ := List.cons.inj g3
  have hv : d.edge.visit = true := by
    rw [reached_cons] at hr; simp only [Bool.and_eq_true] at hr; exact hr.1.1
  obtain ⟨hb, hd, kids', ck, t1, ct, h1, h2, h3, h4⟩ := gwalk_inv hv g5
  have ha' := agrees_step g4 h1
  obtain ⟨hkept, hskip⟩ := handle_kept h1
  have hopen : d.opens hd.ctx = true := by simp [Data.opens, hq]
  rw [hopen] at h2
  simp only [gopen, if_true] at h2
  obtain ⟨k, rfl, he⟩ : ∃ k, kids = [k] ∧ k.data.edge = {} := by
    have := hnwf.1; simp only [nodeOk, hq] at this; exact this.1
  simp only [gwalkList] at h2
  obtain ⟨k1, ck1, hk1, h2⟩ := W.bind_ok h2
  simp only [pure_bind] at h2
  obtain ⟨rfl, rfl⟩ := W.pure_ok h2
  have hm : k1.marks = [] := gwalk_marks (by rw [he]) (by rw [he]) hk1
  obtain ⟨e1, e2, e3⟩ := gtail_inv h4
  have htq := (gtarget_inv h3).question q b hq
  rw [has_eq ha' hskip, hh] at htq
  simp only [if_true] at htq
  obtain ⟨hk, hc, hrn, hkids, htag⟩ := htq
  have hkk := g7.trans (e2.trans hkids)
  have h9 := congrArg (fun l : List RTree => l[0]?) hkk
  refine ⟨ct.get .question, _, (sub_append g2 [0]).trans (sub_head h9), ?_⟩
  · have hbare : ∀ m, (k1.addMark m).bare = k1 := by
      intro m; cases k1; simp only [RTree.marks_mk] at hm; subst hm; rfl
    rw [hbare]
    exact (render_ok_iff (r := ⟨hd.ctx, .question, ct.get .question, q, k1.rear⟩) ha' hn).1 ⟨hk, hrn⟩

/-- C18, from success: the same for a `return`. -/
theorem C18_return_ok {env : Env} {args : List Meta} {s : Settings} {i i' : Item}
    {uses : List Path} (hs : rootSettings env args = .ok s) (hn : s.bindings.keys.Nodup)
    (h : hooqImpls env args i = .ok (uses, i')) {p : List Nat} {d : Data} {up : List Data}
    (hu : i.chain p = some (d :: up)) (hr : reached env s (d :: up) = true)
    (hq : d.tag = .ret) (hh : hookedAt env s (d :: up) .ret = true) {k' : RTree}
    (hk' : i'.tree.sub (p ++ [0]) = some k')
    (hwant : returnWanted env s (d :: up) k'.bare.callee = true) :
    ∃ m, CanHook env s (d :: up) .ret d.span m k'.bare.rear := by
  obtain ⟨c', hw⟩ := expansion hs h
  obtain ⟨n, n0, n', upn, ctx', c1, c2, g1, g2, g3, g4, g5, g6, g7, g8⟩ :=
    gwalk_local (agrees_new env s) hw hu hr
  have hnwf := WF_sub (wfItem {} i) g1
  obtain ⟨dn, ms, kids⟩ := n
  rw [RTree.data_mk] at g3
  obtain ⟨rfl, rfl⟩ := List.cons.inj g3
  have hv : d.edge.visit = true := by
    rw [reached_cons] at hr; simp only [Bool.and_eq_true] at hr; exact hr.1.1
  obtain ⟨hb, hd, kids', ck, t1, ct, h1, h2, h3, h4⟩ := gwalk_inv hv g5
  have ha' := agrees_step g4 h1
  obtain ⟨hkept, hskip⟩ := handle_kept h1
  have hopen : d.opens hd.ctx = true := by simp [Data.opens, hq]
  rw [hopen] at h2
  simp only [gopen, if_true] at h2
  obtain ⟨e1, e2, e3⟩ := gtail_inv h4
  have htq := (gtarget_inv h3).ret hq
  have hnode := hnwf.1
  simp only [nodeOk, hq] at hnode
  rw [sub_append g2] at hk'
  rcases hnode with rfl | ⟨k, rfl, he⟩
  · simp only [gwalkList] at h2
    obtain ⟨rfl, rfl⟩ := W.pure_ok h2
    have hkk := g7.trans (e2.trans htq.2.2.1)
    obtain ⟨da, ma, ka⟩ := n'
    rw [RTree.kids_mk] at hkk
    subst hkk
    simp [RTree.sub] at hk'
  · simp only [gwalkList] at h2
    obtain ⟨k1, ck1, hk1, h2⟩ := W.bind_ok h2
    simp only [pure_bind] at h2
    obtain ⟨rfl, rfl⟩ := W.pure_ok h2
    have hm : k1.marks = [] := gwalk_marks (by rw [he]) (by rw [he]) hk1
    have hbare : ∀ m, (k1.addMark m).bare = k1 := by
      intro m; cases k1; simp only [RTree.marks_mk] at hm; subst hm; rfl
    have hbare0 : k1.bare = k1 := by cases k1; simp only [RTree.marks_mk] at hm; subst hm; rfl
    have htq2 := htq.2.2
    simp only [has_eq ha' hskip, retRule_eq ha', hh, if_true] at htq2
    have hkb : k'.bare = k1 := by
      cases hwk : returnWanted env s (d :: up) k1.callee with
      | false =>
        simp only [hwk, Bool.false_eq_true, if_false] at htq2
        have hkk := g7.trans (e2.trans htq2.1)
        have := sub_head (t := n') (k := k1) (by rw [hkk]; rfl)
        rw [this] at hk'
        obtain rfl := Option.some.inj hk'
        exact hbare0
      | true =>
        simp only [hwk, if_true] at htq2
        obtain ⟨hk, hc, hrn, hkids⟩ := htq2
        have hkk := g7.trans (e2.trans hkids)
        have := sub_head (t := n') (k := _) (by rw [hkk]; rfl)
        rw [this] at hk'
        obtain rfl := Option.some.inj hk'
        exact hbare _
    rw [hkb] at hwant ⊢
    simp only [hwant, if_true] at htq2
    obtain ⟨hk, hc, hrn, hkids⟩ := htq2
    exact ⟨_, (render_ok_iff (r := ⟨hd.ctx, .ret, ct.get .ret, d.span, k1.rear⟩) ha' hn).1 ⟨hk, hrn⟩⟩

/-- C18, from success: the same for a trailing expression. -/
theorem C18_tail_ok {env : Env} {args : List Meta} {s : Settings} {i i' : Item}
    {uses : List Path} (hs : rootSettings env args = .ok s) (hn : s.bindings.keys.Nodup)
    (h : hooqImpls env args i = .ok (uses, i')) {p : List Nat} {d : Data} {up : List Data}
    (hu : i.chain p = some (d :: up)) (hr : reached env s (d :: up) = true) {tk : TailKind}
    (htk : d.edge.tail = some tk) (hmode : d.mode ≠ .untouched)
    (hh : hookedAt env s (d :: up) .tail = true) {n' : RTree} (hn' : i'.tree.sub p = some n')
    (hwant : tailWanted env s (d :: up) tk n'.bare.callee = true) :
    ∃ m, CanHook env s (d :: up) .tail n'.bare.start m n'.bare.rear := by
  obtain ⟨c', hw⟩ := expansion hs h
  obtain ⟨n, n0, n'', upn, ctx', c1, c2, g1, g2, g3, g4, g5, g6, g7, g8⟩ :=
    gwalk_local (agrees_new env s) hw hu hr
  rw [g2] at hn'
  obtain rfl := Option.some.inj hn'
  obtain ⟨dn, ms, kids⟩ := n
  rw [RTree.data_mk] at g3
  obtain ⟨rfl, rfl⟩ := List.cons.inj g3
  have hv : d.edge.visit = true := by
    rw [reached_cons] at hr; simp only [Bool.and_eq_true] at hr; exact hr.1.1
  obtain ⟨hb, hd, kids', ck, t1, ct, h1, h2, h3, h4⟩ := gwalk_inv hv g5
  have ha' := agrees_step g4 h1
  obtain ⟨hkept, hskip⟩ := handle_kept h1
  obtain ⟨e1, e2, e3⟩ := gtail_inv h4
  have hbare : n''.bare = t1 := by
    have hm1 := (gtarget_inv h3).marks
    obtain ⟨da, ma, ka⟩ := n''
    obtain ⟨db, mb, kb⟩ := t1
    simp only [RTree.data_mk, RTree.kids_mk, RTree.marks_mk] at g6 g7 e1 e2 hm1
    simp [RTree.bare, g6, g7, e1, e2, hm1]
  rw [hbare] at hwant ⊢
  simp only [has_eq ha' hskip, tailRule_eq ha', htk, hwant, hh, ne_eq, hmode, not_false_eq_true,
    and_self, if_true] at e3
  obtain ⟨hk, hc, hrn, hms⟩ := e3
  exact ⟨_, (render_ok_iff (r := ⟨hd.ctx, .tail, c2.get .tail, t1.start, t1.rear⟩) ha' hn).1 ⟨hk, hrn⟩⟩

/-- C18.  A `?` that is to be hooked and whose template cannot be expanded makes the
expansion fail. -/
theorem C18_bad_template_fails {env : Env} {args : List Meta} {s : Settings} {i : Item}
    (hs : rootSettings env args = .ok s) (hn : s.bindings.keys.Nodup) {p : List Nat} {d : Data}
    {up : List Data} (hu : i.chain p = some (d :: up)) (hr : reached env s (d :: up) = true)
    {q : Span} {b : Bool} (hq : d.tag = .question q b)
    (hh : hookedAt env s (d :: up) .question = true)
    (hbad : ∀ m out, ¬ StackText (siteAt env s (d :: up) .question q m) (methodStack env s (d :: up)) out) :
    ∃ e, hooqImpls env args i = .error e := by
  cases h : hooqImpls env args i with
  | error e => exact ⟨e, rfl⟩
  | ok r =>
    obtain ⟨uses, i'⟩ := r
    obtain ⟨m, k', -, out, h1, -⟩ := C18_question_ok hs hn h hu hr hq hh
    exact absurd h1 (hbad m out)

/-- C18, partial.  Under a method all of whose expansions re-parse, an item without
inert attributes expands.  Missing: items in which an expression that would be hooked
cannot carry a method call (`Harmless`), see `C18_cast_panics`. -/
theorem C18_always_expands_partial {env : Env} {args : List Meta} {s : Settings} {i : Item}
    (hs : rootSettings env args = .ok s) (hn : s.bindings.keys.Nodup)
    (hm : MethodWorks env s.method fun k => s.bindings.get? k) (hi : Harmless i.tree) :
    ∃ i', hooqImpls env args i = .ok (s.traitUses, i') := by
  obtain ⟨t', c', hw, -⟩ := gwalk_fine hn hm i.tree {} hi (wfItem {} i) (agrees_new env s)
    (fun d hd => absurd hd (by simp))
  rw [walk_tree] at hw
  cases hw2 : walkItem env (Ctx.new s) i {} with
  | error e => simp [hw2, Except.map] at hw
  | ok r => exact ⟨r.1, by simp [hooqImpls, hs, hw2, bind, Except.bind]⟩

/-! ## Methods that work -/

/-- Whatever the target, its facts can be those of a position. -/
theorem works_of_expand {env : Env} {s : Settings} (hn : s.bindings.keys.Nodup)
    (h : ∀ r : RInfo, r.ctx.method.val = s.method → r.ctx.bindings = s.bindings →
      ∃ out, expandMethod r = .ok out)
    (hi : ∀ ts, ∃ re, env.insertRear ts = some re ∧ re ≠ .stuck)
    (hr : ∀ rear ts, rear ≠ .stuck → ∃ sh, env.replaceShape rear ts = some sh ∧ sh ≠ .other .stuck) :
    MethodWorks env s.method fun k => s.bindings.get? k := by
  rintro ⟨sp, k, n, f, g, b⟩ hb
  simp only at hb
  subst hb
  let d : Data := { edge := { fn := some (.fn { ident := f, output := .none, text := g }) }, tag := .mac,
                    mode := .dropped, attrs := [], span := sp, leftmost := false, rear := .closed }
  let c := d.edge.enter (Ctx.new s)
  have hh : d.handle env c = .ok { isSkipped := c.isSkipped, ctx := c, attrs := [] } := rfl
  have ha : Agrees env s [d] c := agrees_step (agrees_new env s) hh
  have hsite : siteAt env s [d] k sp n = ⟨sp, k, n, f, g, fun k => s.bindings.get? k⟩ := by
    simp only [siteAt, Site.mk.injEq, true_and]
    exact ⟨rfl, rfl, funext fun k => rfl⟩
  obtain ⟨out, ho⟩ := h ⟨c, k, n, sp, .whole⟩ rfl rfl
  refine ⟨out, ?_, ?_⟩
  · have := (expandMethod_iff ha hn out).1 ho
    rw [hsite] at this
    exact this
  · cases s.method with
    | insert dot ts exc => exact hi _
    | replace ts exc => exact fun rear h => hr rear _ h

/-- The methods of all presets work, provided that the texts they expand to
re-parse. -/
theorem preset_works {env : Env} {consume : Bool} {helpers : List TT} (hh : NoDollars helpers)
    {ft : PresetFeatures} {q : List String} {f : Flavor}
    (hf : Reaches (presetFlavors consume helpers ft) q f) (hn : f.settings.bindings.keys.Nodup)
    (hi : ∀ ts, ∃ re, env.insertRear ts = some re ∧ re ≠ .stuck)
    (hr : ∀ rear ts, rear ≠ .stuck → ∃ sh, env.replaceShape rear ts = some sh ∧ sh ≠ .other .stuck) :
    MethodWorks env f.settings.method fun k => f.settings.bindings.get? k :=
  works_of_expand hn (fun _ h1 h2 => C51_presets_expand hh hf h1 fun _ h => by rw [h2]; exact h) hi hr

/-! ## Witnesses -/

mutual
/-- Check all nodes. -/
def RTree.allNodes (f : RTree → Bool) : RTree → Bool
  | .mk d ms ks => f (.mk d ms ks) && RTree.allNodesList f ks
/-- Check all nodes. -/
def RTree.allNodesList (f : RTree → Bool) : List RTree → Bool
  | [] => true
  | k :: ks => k.allNodes f && RTree.allNodesList f ks
end

theorem allNodesList_get {f : RTree → Bool} {ks : List RTree} (h : RTree.allNodesList f ks = true)
    {i : Nat} {k : RTree} (hk : ks[i]? = some k) : k.allNodes f = true := by
  induction ks generalizing i with
  | nil => simp at hk
  | cons x ks ih =>
    simp only [RTree.allNodesList, Bool.and_eq_true] at h
    cases i with
    | zero => simp at hk; subst hk; exact h.1
    | succ i => exact ih h.2 (by simpa using hk)

theorem allNodes_sub {f : RTree → Bool} {t : RTree} (h : t.allNodes f = true) {p : List Nat}
    {n : RTree} (hs : t.sub p = some n) : f n = true := by
  induction p generalizing t with
  | nil =>
    obtain ⟨d, ms, ks⟩ := t
    simp only [RTree.allNodes, Bool.and_eq_true] at h
    simp only [RTree.sub, Option.some.injEq] at hs
    subst hs; exact h.1
  | cons i p ih =>
    obtain ⟨d, ms, ks⟩ := t
    simp only [RTree.allNodes, Bool.and_eq_true] at h
    simp only [RTree.sub] at hs
    split at hs
    · rename_i k hk
      exact ih (allNodesList_get h.2 hk) hs
    · simp at hs

/-- A check for `Harmless`, node by node. -/
def harmlessNode (n : RTree) : Bool :=
  !n.built && n.data.attrs.all (fun a => !a.isInert) && n.kids.all (fun k => k.rear != .stuck) &&
    n.rear != .stuck

theorem harmless_of_check {t : RTree} (h : t.allNodes harmlessNode = true) : Harmless t := by
  intro p n hs
  have := allNodes_sub h hs
  simp only [harmlessNode, Bool.and_eq_true, Bool.not_eq_true', bne_iff_ne, List.all_eq_true] at this
  obtain ⟨⟨⟨h1, h2⟩, h3⟩, h4⟩ := this
  exact ⟨h1, h2, fun _ => h3, fun _ => h4⟩

section
open Ex
set_option maxRecDepth 10000

/-- `fn f() -> Result { x?; return Err(y?); Err(g(z)?) }` -/
def Ex.plainItem : Item :=
  .fn [] { ident := "f", output := result, text := "fn f () -> Result" }
    [.expr (quest [] (var "x" 2) 2) true,
     .expr (.mk [] (sp 3 1) (.ret (some (call "Err" [quest [] (var "y" 3) 3] 3)))) true,
     .expr (call "Err" [quest [] (call "g" [var "z" 4] 4) 4] 4) false]

/-- `Ex.plainItem` under the `default` preset meets the hypotheses of
`C18_always_expands_partial`. -/
example : ∃ i', hooqImpls env [] Ex.plainItem = .ok ([], i') :=
  C18_always_expands_partial root_ok (by decide)
    (preset_works (helpers := [tkId "helpers"]) (ft := ⟨true, true, true, true⟩) ⟨trivial, trivial⟩
      (.top (List.mem_cons_self ..)) (by decide) (fun _ => ⟨.whole, rfl, by decide⟩)
      (fun _ _ _ => ⟨.same, rfl, by decide⟩))
    (harmless_of_check rfl)

/-- `fn f() -> Result { return x as T; }` -/
def Ex.castItem : Item :=
  .fn [] { ident := "f", output := result, text := "fn f () -> Result" }
    [.expr (.mk [] (sp 2 1) (.ret (some (.mk [] (sp 2 8) (.cast (var "x" 2) "T"))))) true]

/-- An item without any attribute, under a method that works, whose expansion fails: a
method cannot be called on `x as T`. -/
theorem C18_cast_panics : hooqImpls env [] Ex.castItem = .error .panic ∧
    (∀ p n, Ex.castItem.tree.sub p = some n → ∀ a ∈ n.data.attrs, a.isInert = false) := by
  refine ⟨rfl, fun p n hs a ha => ?_⟩
  have := allNodes_sub (t := Ex.castItem.tree) (f := fun n => n.data.attrs.isEmpty) rfl hs
  simp only [List.isEmpty_iff] at this
  rw [this] at ha
  simp at ha

/-- `#[hooq::hook_targets("x")] fn f() -> Result { y? }` has a malformed attribute that
is reached. -/
def Ex.badItem : Item :=
  .fn [.list (hooqPath "hook_targets") [.lit (.str "x") .callSite]]
    { ident := "f", output := result, text := "fn f () -> Result" }
    [.expr (quest [] (var "y" 2) 2) false]

/-- The hypotheses of `C18_malformed_fails` can be met. -/
example : ∃ d a, Ex.badItem.chain [] = some [d] ∧ reached env settings [d] = true ∧ a ∈ d.seen ∧
    ¬ AttrOk env a ∧ Ex.badItem.IsSource := by
  refine ⟨_, _, rfl, rfl, List.mem_cons_self .., ?_, fun p n hs => ?_⟩
  · intro h
    rw [← inertStep_ok_iff env {}] at h
    obtain ⟨r, hr⟩ := h
    cases hr
  · have := allNodes_sub (t := Ex.badItem.tree) (f := fun n => !n.built) rfl hs
    simpa using this

/-- `#[hooq::method(.a($b))] fn f() -> Result { y? }` uses an unknown variable. -/
def Ex.unknownVar : Item :=
  .fn [.list (hooqPath "method") [tkP '.', tkId "a", tkParen (tkVar "b")]]
    { ident := "f", output := result, text := "fn f () -> Result" }
    [.expr (quest [] (var "y" 2) 2) true]

/-- A failure of the second kind. -/
example : hooqImpls env [] Ex.unknownVar = .error (.unknownVar "b" [] .callSite) := rfl

end

end Hooq
