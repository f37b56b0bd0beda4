import Verif.Proof.Foreign
import Verif.Proof.Congr
import Verif.Props.Hook

/-!
# Attributes on a node (C20, C29 - C32)
-/

namespace Hooq

/-! ## C29 -/

/-- C29.  An accepted list enables exactly the kinds that some entry names. -/
theorem C29_union {l : List String} {sw : Targets} (h : Targets.parse l = .ok sw) (k : Kind) :
    sw.has k = true ↔ ∃ s ∈ l, NamesKind s k := by
  rw [(parseFrom_ok h).2 k]
  cases k <;> simp [Targets.has]

/-- C29.  A list is accepted exactly when all entries are known names. -/
theorem C29_accepted (l : List String) :
    (∃ sw, Targets.parse l = .ok sw) ↔ ∀ s ∈ l, KnownTarget s := targets_parse_ok_iff l

/-- C29.  The name reported is the first unknown one. -/
theorem C29_first_unknown (l : List String) (e : String) :
    Targets.parse l = .error e ↔
      ∃ pre post, l = pre ++ e :: post ∧ (∀ s ∈ pre, KnownTarget s) ∧ ¬ KnownTarget e := by
  constructor
  · exact parseFrom_error
  · rintro ⟨pre, post, rfl, h1, h2⟩
    cases hp : Targets.parse (pre ++ e :: post) with
    | ok sw => exact absurd ((C29_accepted _).1 ⟨sw, hp⟩ e (by simp)) h2
    | error e' =>
      obtain ⟨pre', post', he, h3, h4⟩ := parseFrom_error hp
      rcases List.append_eq_append_iff.1 he with ⟨x, hx, hy⟩ | ⟨x, hx, hy⟩
      · cases x with
        | nil => simp at hy; rw [hy.1]
        | cons y ys =>
          simp only [List.cons_append, List.cons.injEq] at hy
          exact absurd (h3 e (by rw [hx, hy.1]; simp)) h2
      · cases x with
        | nil => simp at hy; rw [hy.1]
        | cons y ys =>
          simp only [List.cons_append, List.cons.injEq] at hy
          exact absurd (h1 e' (by rw [hx, hy.1]; simp)) h4

/-- C29.  Order and repetition do not matter. -/
theorem C29_set {l l' : List String} (h : ∀ s, s ∈ l ↔ s ∈ l') :
    (Targets.parse l).toOption = (Targets.parse l').toOption := by
  cases h1 : Targets.parse l with
  | error e =>
    cases h2 : Targets.parse l' with
    | error e' => rfl
    | ok sw =>
      have := (C29_accepted l').1 ⟨sw, h2⟩
      obtain ⟨sw', h3⟩ := (C29_accepted l).2 fun s hs => this s ((h s).1 hs)
      rw [h1] at h3; cases h3
  | ok sw =>
    obtain ⟨sw', h2⟩ := (C29_accepted l').2 fun s hs => (C29_accepted l).1 ⟨sw, h1⟩ s ((h s).2 hs)
    rw [h2]
    have : ∀ k, sw.has k = sw'.has k := by
      intro k
      rw [Bool.eq_iff_iff, C29_union h1, C29_union h2]
      simp only [h]
    have q := this .question
    have r := this .ret
    have t := this .tail
    simp only [Targets.has] at q r t
    simp only [Except.toOption, Option.some.injEq]
    obtain ⟨a, b, c⟩ := sw
    obtain ⟨a', b', c'⟩ := sw'
    simp_all

example : Targets.parse ["return", "?", "question"] = .ok ⟨true, true, false⟩ ∧
    Targets.parse ["?", "x", "y"] = .error "x" := by
  constructor <;> rfl

/-! ## C30 -/

/-- C30.  On one node the last attribute that sets a setting wins; a setting that no
attribute gives is left open.  The attributes that stay are the foreign ones. -/
theorem C30_last_wins {env : Env} {attrs kept : List Attr} {i : Inert}
    (h : extract env attrs = .ok (i, kept)) :
    i.method = attrs.reverse.findSome? (methodOf env) ∧
    i.targets = attrs.reverse.findSome? (targetsOf env) ∧
    i.tailIdents = attrs.reverse.findSome? (tailIdentsOf env) ∧
    i.resultTypes = attrs.reverse.findSome? (resultTypesOf env) ∧
    i.hookInMacros = attrs.reverse.findSome? (macrosOf env) ∧
    (∀ k, i.bindings.get? k = attrs.reverse.findSome? (bindingOf env k)) ∧
    kept = attrs.filter fun a => !a.isInert := by
  have s := extract_spec h
  simp only [← lastSet_eq_find]
  refine ⟨?_, ?_, ?_, ?_, ?_, ?_, s.kept⟩
  · simp [s.method]
  · simp [s.targets]
  · simp [s.tailIdents]
  · simp [s.resultTypes]
  · simp [s.hookInMacros]
  · intro k; simp [s.bindings, AMap.get?]

theorem ignore_fold {env : Env} {attrs : List Attr} (h : ∀ a ∈ attrs, ∀ l, ignoreOf env a ≠ .set l)
    (cur : Option (List String)) :
    (attrs.foldl (fun cur a => (ignoreOf env a).apply cur) cur).getD []
      = cur.getD [] ++ attrs.flatMap (addedIgnores env) := by
  induction attrs generalizing cur with
  | nil => simp
  | cons a rest ih =>
    rw [List.foldl_cons, ih fun b hb => h b (by simp [hb])]
    simp only [List.flatMap_cons, ← List.append_assoc]
    congr 1
    have := h a (by simp)
    simp only [addedIgnores]
    cases ha : ignoreOf env a with
    | keep => simp [IgnoreEffect.apply]
    | set l => exact absurd ha (this l)
    | add l => simp [IgnoreEffect.apply]

/-- C30.  Ignore identifiers given by lists accumulate in order. -/
theorem C30_ignore_accumulate {env : Env} {attrs kept : List Attr} {i : Inert}
    (h : extract env attrs = .ok (i, kept)) (hl : ∀ a ∈ attrs, ∀ l, ignoreOf env a ≠ .set l) :
    i.ignoreIdents.getD [] = attrs.flatMap (addedIgnores env) := by
  have s := extract_spec h
  rw [s.ignoreIdents, ignore_fold hl]
  simp

/-- C30.  A flavor form replaces what was given before it. -/
theorem C30_ignore_replace {env : Env} {pre post kept : List Attr} {a : Attr} {l : List String} {i : Inert}
    (h : extract env (pre ++ a :: post) = .ok (i, kept)) (ha : ignoreOf env a = .set l)
    (hl : ∀ b ∈ post, ∀ l, ignoreOf env b ≠ .set l) :
    i.ignoreIdents.getD [] = l ++ post.flatMap (addedIgnores env) := by
  have s := extract_spec h
  rw [s.ignoreIdents, List.foldl_append, List.foldl_cons, ignore_fold hl, ha]
  simp [IgnoreEffect.apply]

/-- C30.  `!x` entries in `tail_expr_idents` are the same as `ignore_tail_expr_idents`
entries `x`: the list form may be split into its plain part and its negated part. -/
theorem C30_bang {env : Env} {pre post : List Attr} {ts ts1 ts2 : List TT} {l : List String}
    (h0 : parseStrings ts = some l)
    (h1 : parseStrings ts1 = some (l.filter fun s => s.toList.head? ≠ some '!'))
    (h2 : parseStrings ts2 = some (bangs l)) (hb : bangs l ≠ []) :
    ExceptRel (fun r r' => SameInert r.1 r'.1 ∧ r.2 = r'.2)
      (extract env (pre ++ .list (hooqPath "tail_expr_idents") ts :: post))
      (extract env (pre ++ .list (hooqPath "tail_expr_idents") ts1 ::
        .list (hooqPath "ignore_tail_expr_idents") ts2 :: post)) := by
  simp only [extract, extractFrom_append]
  cases extractFrom env {} pre with
  | error e => exact rfl
  | ok r0 =>
    obtain ⟨acc, kept⟩ := r0
    have hbb : bangs (l.filter fun s => s.toList.head? ≠ some '!') = [] := by
      clear h0 h1 h2 hb
      induction l with
      | nil => rfl
      | cons s l ih =>
        by_cases hs : s.toList.head? = some '!'
        · simpa [hs] using ih
        · rw [List.filter_cons_of_pos (by simpa using hs)]
          simp only [bangs, List.filterMap_cons] at ih ⊢
          rw [ih]
          cases hc : s.toList with
          | nil => rfl
          | cons c cs =>
            have : c ≠ '!' := by simpa [hc] using hs
            simp [this]
    have hff : (l.filter fun s => s.toList.head? ≠ some '!').filter (fun s => s.toList.head? ≠ some '!')
        = l.filter fun s => s.toList.head? ≠ some '!' := by simp
    have key : SameInert
        { acc with tailIdents := some (splitInclude l).1,
                   ignoreIdents := match acc.ignoreIdents with
                    | some v => some (v ++ (splitInclude l).2)
                    | none => if (splitInclude l).2.isEmpty then none else some (splitInclude l).2 }
        { acc with tailIdents := some (splitInclude (l.filter fun s => s.toList.head? ≠ some '!')).1,
                   ignoreIdents := appendIgnore (match acc.ignoreIdents with
                    | some v => some (v ++ (splitInclude (l.filter fun s => s.toList.head? ≠ some '!')).2)
                    | none => if (splitInclude (l.filter fun s => s.toList.head? ≠ some '!')).2.isEmpty
                        then none
                        else some (splitInclude (l.filter fun s => s.toList.head? ≠ some '!')).2)
                    (bangs l) } := by
      constructor <;> simp only [splitInclude_fst, splitInclude_snd, hbb, hff, implies_true]
      cases acc.ignoreIdents with
      | none => simp [appendIgnore, hb]
      | some v => simp [appendIgnore]
    have := extractFrom_same (env := env) key post
    simp only [bind, Except.bind, extractFrom, inertStep, hooqPath_inj, h0, h1, h2, if_true,
      show ("tail_expr_idents" = "method") = False by decide,
      show ("tail_expr_idents" = "hook_targets") = False by decide,
      show ("ignore_tail_expr_idents" = "method") = False by decide,
      show ("ignore_tail_expr_idents" = "hook_targets") = False by decide,
      show ("ignore_tail_expr_idents" = "tail_expr_idents") = False by decide, if_false]
    revert this
    generalize extractFrom env _ post = x
    generalize extractFrom env _ post = y
    intro this
    cases x <;> cases y
    · exact this
    · exact this.elim
    · exact this.elim
    · exact ⟨this.1, by simp [this.2]⟩

/-- C30.  Attributes that set different things commute: swapping two neighbours (not
both foreign) on a visited node changes nothing at all in what the walk does with the
node and everything below it. -/
theorem C30_commute {env : Env} {a b : Attr} (ha : AttrOk env a) (hb : AttrOk env b)
    (hab : SetsApart env a b) (hi : a.isInert = true ∨ b.isInert = true) (pre post : List Attr)
    {d : Data} (hd : d.handles = true) {ctx : Ctx} (hn : ctx.bindings.keys.Nodup)
    (kids : List RTree) (hv : d.edge.visit = true) :
    gwalk env ctx (.mk { d with attrs := pre ++ a :: b :: post } [] kids)
      = gwalk env ctx (.mk { d with attrs := pre ++ b :: a :: post } [] kids) := by
  have hx := extract_swap ha hb hab hi pre post
  have hs : (d.edge.enter ctx).Same (d.edge.enter ctx) := enter_same
    ⟨rfl, rfl, rfl, rfl, rfl, rfl, ⟨fun _ => rfl, hn, hn⟩, rfl, rfl⟩ _
  have hh : ExceptRel Handled.Same
      (({ d with attrs := pre ++ a :: b :: post } : Data).handle env (d.edge.enter ctx))
      (({ d with attrs := pre ++ b :: a :: post } : Data).handle env (d.edge.enter ctx)) := by
    have e : ∀ x, ({ d with attrs := x } : Data).handles = true := fun _ => hd
    simp only [Data.handle, e, if_true, handleAttrs]
    cases h1 : extract env (pre ++ a :: b :: post) with
    | error e =>
      cases h2 : extract env (pre ++ b :: a :: post) with
      | error e' => rw [h1, h2] at hx; rw [show e = e' from hx]; exact rfl
      | ok y => rw [h1, h2] at hx; exact hx.elim
    | ok x =>
      cases h2 : extract env (pre ++ b :: a :: post) with
      | error e' => rw [h1, h2] at hx; exact hx.elim
      | ok y =>
        rw [h1, h2] at hx
        obtain ⟨hx1, hx2⟩ := hx
        have n1 := extractFrom_nodup h1 (by simp [AMap.keys])
        have n2 := extractFrom_nodup h2 (by simp [AMap.keys])
        exact ⟨update_same hs hx1 n1 n2, hx2, by simp [hx1.skip, hx1.skipAll]⟩
  have b1 : ∀ x, (RTree.mk { d with attrs := x } [] kids).built = (RTree.mk d [] kids).built := fun _ => rfl
  simp only [gwalk, hv, if_true, b1]
  split
  · rfl
  · revert hh
    generalize ({ d with attrs := pre ++ a :: b :: post } : Data).handle env (d.edge.enter ctx) = x
    generalize ({ d with attrs := pre ++ b :: a :: post } : Data).handle env (d.edge.enter ctx) = y
    intro hh
    cases x with
    | error e =>
      cases y with
      | error e' => rw [show e = e' from hh]; rfl
      | ok y => exact hh.elim
    | ok x =>
      cases y with
      | error e' => exact hh.elim
      | ok y =>
        have hh : x.Same y := hh
        simp only [W.lift_ok, pure_bind]
        have o : ∀ c a', ({ d with attrs := a' } : Data).opens c = d.opens c := fun _ _ => rfl
        simp only [o, opens_same hh.ctx, gwalkList_same env hh.ctx kids]
        congr 1
        funext kids'
        have g1 : gtarget env x { d with attrs := pre ++ a :: b :: post } kids kids'
            = gtarget env y { d with attrs := pre ++ b :: a :: post } kids kids' := by
          rw [gtarget_same hh]; rfl
        have g2 : ∀ t, gtail env x { d with attrs := pre ++ a :: b :: post } kids t
            = gtail env y { d with attrs := pre ++ b :: a :: post } kids t := by
          intro t; rw [gtail_same hh]; rfl
        rw [g1]
        congr 1
        funext t
        exact g2 t

/-! ## C31 -/

/-- C31.  The path of the attribute `hooq::name`: two plain segments, nothing in front. -/
theorem C31_name (p : Path) (name : String) : p = hooqPath name ↔
    p.leading = false ∧ p.segs.map (·.ident) = ["hooq", name] ∧ ∀ g ∈ p.segs, g.hasArgs = false := by
  obtain ⟨l, segs⟩ := p
  constructor
  · intro h
    simp only [hooqPath, Path.ofIdents, Path.mk.injEq] at h
    obtain ⟨rfl, rfl⟩ := h
    simp
  · rintro ⟨rfl, h1, h2⟩
    match segs, h1, h2 with
    | [⟨a, x⟩, ⟨b, y⟩], h1, h2 =>
      simp at h1 h2
      obtain ⟨rfl, rfl⟩ := h1
      obtain ⟨rfl, rfl⟩ := h2
      rfl

/-- C31.  If the expansion succeeds, every attribute on a visited node is foreign or of
a documented form; contrapositively, an attribute that begins with `hooq::` and is not
of a documented form is an error. -/
theorem C31_unknown_rejected {env : Env} {args : List Meta} {s : Settings} {i i' : Item}
    {uses : List Path} (hs : rootSettings env args = .ok s)
    (h : hooqImpls env args i = .ok (uses, i')) {p : List Nat} {d : Data} {up : List Data}
    (hu : i.chain p = some (d :: up)) (hr : reached env s (d :: up) = true) :
    ∀ a ∈ d.seen, AttrOk env a := by
  obtain ⟨n, ctx, hd, c1, c2, n0, -, -, h3, -⟩ := C08_lexical_context hs h hu hr
  intro a ha
  cases hh : d.handles with
  | false => rw [seen_not_handles hh] at ha; simp at ha
  | true =>
    rw [seen_handles hh] at ha
    simp only [Data.handle, hh, if_true] at h3
    obtain ⟨i, kept, h4, -⟩ := handleAttrs_ok h3
    exact (extractFrom_ok_iff env {} d.attrs).1 ⟨_, h4⟩ a ha

/-- C31.  The attributes of a node are accepted exactly when each is foreign or of a
documented form. -/
theorem C31_accepted_iff (env : Env) (attrs : List Attr) (c : Ctx) :
    (∃ h, handleAttrs env attrs c = .ok h) ↔ ∀ a ∈ attrs, AttrOk env a := by
  rw [← extractFrom_ok_iff env {} attrs]
  simp only [handleAttrs, extract]
  cases extractFrom env {} attrs <;> simp [bind, Except.bind]

/-- C31.  Foreign attributes never cause an error and never influence the expansion:
two items whose trees agree except for foreign attributes expand both with the same
error, or both to trees that agree except for foreign attributes. -/
theorem C31_foreign_ignored (env : Env) (args : List Meta) {i j : Item}
    (h : i.tree.inertOnly = j.tree.inertOnly) :
    (hooqImpls env args i).map (fun r => (r.1, r.2.tree.inertOnly))
      = (hooqImpls env args j).map (fun r => (r.1, r.2.tree.inertOnly)) := by
  have key : ∀ (s : Settings) (i : Item),
      gwalk env (Ctx.new s) i.tree.inertOnly
        = (fun i' : Item => i'.tree.inertOnly) <$> walkItem env (Ctx.new s) i := by
    intro s i
    rw [gwalk_inertOnly, refItem env (Ctx.new s) {} rfl rfl i, enter_empty]
    simp
  simp only [hooqImpls]
  cases rootSettings env args with
  | error e => rfl
  | ok s =>
    have h1 := congrFun (key s i) {}
    have h2 := congrFun (key s j) {}
    rw [h, h2] at h1
    simp only [Functor.map, StateT.map, bind, Except.bind, pure, Except.pure] at h1
    simp only [bind, Except.bind]
    cases hi : walkItem env (Ctx.new s) i {} with
    | error e =>
      cases hj : walkItem env (Ctx.new s) j {} with
      | error e' => rw [hi, hj] at h1; simp at h1; rw [h1]
      | ok y => rw [hi, hj] at h1; simp at h1
    | ok x =>
      cases hj : walkItem env (Ctx.new s) j {} with
      | error e' => rw [hi, hj] at h1; simp at h1
      | ok y => rw [hi, hj] at h1; simp at h1; simp [Except.map, h1.1]

/-! ## C32 -/

theorem foreign_none {env : Env} {a : Attr} (h : a.isInert = false) :
    methodOf env a = none ∧ targetsOf env a = none ∧ tailIdentsOf env a = none ∧
    ignoreOf env a = .keep ∧ resultTypesOf env a = none ∧ macrosOf env a = none ∧
    ∀ k, bindingOf env k a = none := by
  have hn := not_inert_ne h
  cases a with
  | path p => simp [methodOf, targetsOf, tailIdentsOf, ignoreOf, resultTypesOf, macrosOf, bindingOf]
  | list p ts =>
    simp only [Meta.getPath] at hn
    simp [methodOf, targetsOf, tailIdentsOf, ignoreOf, resultTypesOf, macrosOf, bindingOf, whenNamed, hn]
  | nv p v =>
    simp only [Meta.getPath] at hn
    simp only [methodOf, targetsOf, tailIdentsOf, ignoreOf, resultTypesOf, macrosOf, bindingOf, whenNamed,
      settingNames, List.map_cons, List.map_nil, List.mem_cons, hn, List.not_mem_nil, or_self, if_false,
      true_and]
    intro k
    split
    · rename_i s b hs
      simp [Meta.isInert, Meta.getPath, hs] at h
      simp [h]
    · rfl

theorem lastSet_inert {β : Type} {f : Attr → Option β} (hf : ∀ a : Attr, a.isInert = false → f a = none)
    (l : List Attr) : lastSet f l = lastSet f (l.filter Meta.isInert) := by
  induction l with
  | nil => rfl
  | cons a l ih =>
    cases ha : a.isInert with
    | true => rw [List.filter_cons_of_pos ha, lastSet_cons, lastSet_cons, ih]
    | false => rw [List.filter_cons_of_neg (by simp [ha]), lastSet_cons, ih, hf a ha]; simp

theorem nodeIgnore_inert (env : Env) (l : List Attr) :
    nodeIgnore env l = nodeIgnore env (l.filter Meta.isInert) := by
  suffices h : ∀ cur, l.foldl (fun cur a => (ignoreOf env a).apply cur) cur
      = (l.filter Meta.isInert).foldl (fun cur a => (ignoreOf env a).apply cur) cur from h none
  induction l with
  | nil => intro; rfl
  | cons a l ih =>
    intro cur
    cases ha : a.isInert with
    | true => rw [List.filter_cons_of_pos ha, List.foldl_cons, List.foldl_cons, ih]
    | false =>
      rw [List.filter_cons_of_neg (by simp [ha]), List.foldl_cons, (foreign_none ha).2.2.2.1, ih]; rfl

/-- No inert attribute on these nodes. -/
def NoInert (l : List Data) : Prop := ∀ d ∈ l, d.seen.filter Meta.isInert = []

theorem nearest_noInert {β : Type} {f : Attr → Option β} (hf : ∀ a : Attr, a.isInert = false → f a = none)
    {l : List Data} (h : NoInert l) (rest : List Data) : nearest f (l ++ rest) = nearest f rest := by
  induction l with
  | nil => rfl
  | cons d l ih =>
    rw [List.cons_append, nearest_cons, ih fun e he => h e (by simp [he]), lastSet_inert hf,
      h d (by simp)]
    rfl

theorem ignore_noInert {env : Env} {l : List Data} (h : NoInert l) (rest : List Data) :
    ((l ++ rest).findSome? fun e => nodeIgnore env e.seen)
      = rest.findSome? fun e => nodeIgnore env e.seen := by
  induction l with
  | nil => rfl
  | cons d l ih =>
    rw [List.cons_append, List.findSome?_cons, nodeIgnore_inert, h d (by simp)]
    exact ih fun e he => h e (by simp [he])

/-- What `flavorOf` resolves to: the settings of the flavor stored under the path that
the value names. -/
theorem flavorOf_some {env : Env} {v : Value} {f : Settings} (h : flavorOf env v = some f) :
    ∃ m path fl, env.store = .ok m ∧ getFlavorPath v "" = .ok path ∧ getFlavor m path = .ok fl ∧
      f = fl.settings := by
  simp only [flavorOf, flavorOfValue] at h
  cases hp : getFlavorPath v "" with
  | error e => simp [hp, bind, Except.bind, Except.toOption] at h
  | ok path =>
    simp only [hp, bind, Except.bind, lookupFlavor] at h
    cases hm : env.store with
    | error e => simp [hm, Except.toOption] at h
    | ok m =>
      simp only [hm] at h
      cases hg : getFlavor m path with
      | error e => simp [hg, Except.toOption] at h
      | ok fl =>
        simp only [hg, Except.toOption, Option.some.injEq] at h
        exact ⟨m, path, fl, rfl, rfl, hg, h.symm⟩

/-- C32.  Below (and at) a node whose only inert attribute is `#[hooq::flavor = F]`,
with no further inert attribute on the way, the macro works with the settings of `F`;
a binding is that of `F` if it has one, and else the one in force around the node. -/
theorem C32_flavor {env : Env} {args : List Meta} {s F : Settings} {i i' : Item}
    {uses : List Path} (hs : rootSettings env args = .ok s)
    (h : hooqImpls env args i = .ok (uses, i')) {p : List Nat} {d e : Data} {up l rest : List Data}
    (hu : i.chain p = some (e :: up)) (hr : reached env s (e :: up) = true)
    (hsplit : e :: up = l ++ d :: rest) (hl : NoInert l) {v : Value}
    (hd : d.seen.filter Meta.isInert = [.nv (hooqPath "flavor") v]) (hF : flavorOf env v = some F)
    (hFn : F.bindings.keys.Nodup) :
    uses = s.traitUses ∧
    ∃ n ctx hd c1 c2 n0, i.tree.sub p = some n ∧ gwalk env ctx n c1 = .ok (n0, c2) ∧
      e.handle env (e.edge.enter ctx) = .ok hd ∧
      hd.ctx.method.val = F.method ∧ hd.ctx.targets = F.targets ∧
      hd.ctx.tailIdents = F.tailIdents ∧ hd.ctx.resultTypes = F.resultTypes ∧
      hd.ctx.hookInMacros = F.hookInMacros ∧ hd.ctx.ignoreIdents = F.ignoreIdents ∧
      ∀ k, hd.ctx.bindings.get? k = (F.bindings.get? k).or
        ((nearest (bindingOf env k) rest).or (s.bindings.get? k)) := by
  constructor
  · simp only [hooqImpls, hs] at h
    obtain ⟨_, h0, h⟩ := except_bind_ok h
    obtain rfl := Except.ok.inj h0
    obtain ⟨r, -, h2⟩ := except_bind_ok h
    simp only [Except.ok.injEq, Prod.mk.injEq] at h2
    exact h2.1.symm
  · obtain ⟨n, ctx, hd', c1, c2, n0, g1, g2, g3, g4, g5, g6, g7, g8, g9, g10⟩ :=
      C08_lexical_context hs h hu hr
    have key : ∀ {β : Type} {f : Attr → Option β}, (∀ a : Attr, a.isInert = false → f a = none) →
        nearest f (e :: up) = (f (.nv (hooqPath "flavor") v)).or (nearest f rest) := by
      intro β f hf
      rw [hsplit, nearest_noInert hf hl, nearest_cons, lastSet_inert hf, hd, lastSet_cons]
      rfl
    refine ⟨n, ctx, hd', c1, c2, n0, g1, g2, g3, ?_, ?_, ?_, ?_, ?_, ?_, ?_⟩
    · rw [g4, key fun a ha => (foreign_none ha).1]; simp [methodOf, whenNamed, hF]
    · rw [g5, key fun a ha => (foreign_none ha).2.1]; simp [targetsOf, whenNamed, hF]
    · rw [g6, key fun a ha => (foreign_none ha).2.2.1]; simp [tailIdentsOf, whenNamed, hF]
    · rw [g7, key fun a ha => (foreign_none ha).2.2.2.2.1]; simp [resultTypesOf, whenNamed, hF]
    · rw [g8, key fun a ha => (foreign_none ha).2.2.2.2.2.1]; simp [macrosOf, whenNamed, hF]
    · rw [g9, hsplit, ignore_noInert hl, List.findSome?_cons, nodeIgnore_inert, hd]
      simp [nodeIgnore, ignoreOf, hF, IgnoreEffect.apply]
    · intro k
      rw [g10, key fun a ha => (foreign_none ha).2.2.2.2.2.2 k, Option.or_assoc]
      congr 1
      simp only [bindingOf, List.map_cons, List.mem_cons, true_or, if_true, hF, Option.bind_some]
      exact AMap.lastVal_nodup F.bindings hFn k

/-! ## C20 -/

/-- C20, what is proved.  A node that carries `#[hooq]` or `#[hooq(..)]` (its path is
not inert) and whose attributes the macro looks at keeps that attribute in the output,
and the attribute neither disables nor changes the hooks of the outer expansion: they
are placed inside the item exactly as if it were absent (C01 - C03, C31).  Full
statement: additionally, the later expansion of the kept attribute hooks the same
targets once more.  That is false in general; `C67_question`, `C67_return` and `C67_tail`
say exactly what the later expansion hooks. -/
theorem C20_nested_hooq_partial {env : Env} {args : List Meta} {s : Settings} {i i' : Item}
    {uses : List Path} (hs : rootSettings env args = .ok s) (hb : s.bindings.keys.Nodup)
    (h : hooqImpls env args i = .ok (uses, i')) {p : List Nat} {d : Data} {up : List Data}
    (hu : i.chain p = some (d :: up)) (hq : d.tag.isQuestion = false) (hm : d.mode ≠ .dropped)
    {a : Attr} (ha : a ∈ d.attrs) (hp : a.getPath.segs.map (·.ident) = ["hooq"]) :
    ∃ n', i'.tree.sub p = some n' ∧ a ∈ n'.data.attrs := by
  obtain ⟨n', h1, h2⟩ := C13_attributes_partial hs hb h hu
  refine ⟨n', h1, ?_⟩
  have hi : a.isInert = false := by
    simp only [Meta.isInert]
    cases hsg : a.getPath.segs with
    | nil => rfl
    | cons x xs =>
      rw [hsg] at hp
      cases xs with
      | nil => rfl
      | cons y ys => simp at hp
  rw [h2]
  split
  · exact ha
  · split
    · rename_i _ hc; rw [hq] at hc; simp at hc
    · split
      · exact ha
      · simp [ha, hi]

/-! ## Examples -/

section
open Ex
set_option maxRecDepth 10000

/-- `#[hooq::method(..)]` and `#[hooq::skip]` set different things. -/
example : SetsApart env (.list (hooqPath "method") aMethod) (.path (hooqPath "skip")) ∧
    AttrOk env (.list (hooqPath "method") aMethod) ∧ AttrOk env (.path (hooqPath "skip")) ∧
    Meta.isInert (.path (hooqPath "skip")) = true := by
  refine ⟨⟨.inr rfl, .inr rfl, .inr rfl, .inr rfl, .inr rfl, .inr rfl, fun _ => .inr rfl⟩,
    .inr (.inl rfl), .inr ?_, rfl⟩
  simp

/-- Two ignore lists and a `!` entry on one node. -/
example : ∃ i, extract env
      [.list (hooqPath "ignore_tail_expr_idents") [tkStr "A"],
       .list (hooqPath "tail_expr_idents") [tkStr "!B", tkP ',', tkStr "C"],
       .list (hooqPath "ignore_tail_expr_idents") [tkStr "D"]] = .ok (i, []) ∧
    i.ignoreIdents = some ["A", "B", "D"] ∧ i.tailIdents = some ["C"] := ⟨_, rfl, rfl, rfl⟩

/-- The hypotheses of `C30_bang`. -/
example : parseStrings [tkStr "!B", tkP ',', tkStr "C"] = some ["!B", "C"] ∧
    parseStrings [tkStr "C"] = some (["!B", "C"].filter fun s => s.toList.head? ≠ some '!') ∧
    parseStrings [tkStr "B"] = some (bangs ["!B", "C"]) ∧ bangs ["!B", "C"] ≠ [] :=
  ⟨rfl, rfl, rfl, by decide⟩

/-- `#[a] fn f() -> Result { { Err(e) }; g() }`. -/
def Ex.inBlock (a : Attr) : Item :=
  .fn [a] { ident := "f", output := result, text := "fn f () -> Result" }
    [.expr (.mk [] (sp 2 1) (.block "" [.expr (call "Err" [var "e" 2] 2) false])) true, .expr (call "g" [] 3) false]

/-- C30, against the reference (attributes.md, `ignore_tail_expr_idents`), which says that `tail_expr_idents("!g")` gives
the same behavior as `ignore_tail_expr_idents("g")`.  Both leave `g()` alone, but the former also takes
`Err` off the list: the `Err(e)` in the block is hooked under the latter only. -/
theorem C30_bang_clears : ∃ i1 i2 b1 b2 g1 g2 e1 e2,
    hooqImpls env [] (inBlock (.list (hooqPath "ignore_tail_expr_idents") [tkStr "g"])) = .ok ([], i1) ∧
    hooqImpls env [] (inBlock (.list (hooqPath "tail_expr_idents") [tkStr "!g"])) = .ok ([], i2) ∧
    i1.tree.sub [1] = some g1 ∧ g1.marks = [] ∧ i2.tree.sub [1] = some g2 ∧ g2.marks = [] ∧
    i1.tree.sub [0] = some b1 ∧ b1.kids = [e1] ∧ e1.marks.length = 1 ∧
    i2.tree.sub [0] = some b2 ∧ b2.kids = [e2] ∧ e2.marks = [] :=
  ⟨_, _, _, _, _, _, _, _, rfl, rfl, rfl, rfl, rfl, rfl, rfl, rfl, rfl, rfl, rfl, rfl⟩

/-- `#[hooq::unknown]` is rejected, `#[inline]` is not. -/
example : extract env [.path (hooqPath "unknown")] = .error (.unknownAttr (hooqPath "unknown")) ∧
    ∃ i, extract env [.path (.ofIdents ["inline"])] = .ok (i, [.path (.ofIdents ["inline"])]) :=
  ⟨rfl, _, rfl⟩

/-- Items that differ only in `#[inline]`. -/
example : (Item.fn [.path (.ofIdents ["inline"])] { ident := "f", output := result, text := "" } []).tree.inertOnly
    = (Item.fn [] { ident := "f", output := result, text := "" } []).tree.inertOnly := rfl

/-- `fn f() { #[hooq::flavor = log::warn] { x?; } }` -/
def Ex.flavored : Item :=
  .fn [] { ident := "f", output := result, text := "fn f () -> Result" }
    [.expr (.mk [.nv (hooqPath "flavor") ⟨.path (.ofIdents ["log", "warn"]), "log :: warn"⟩] (sp 2 1)
      (.block "" [.expr (quest [] (var "x" 2) 2) true])) true]

/-- The hypotheses of `C32_flavor` at `x?`. -/
example : ∃ e up l d rest F i', rootSettings env [] = .ok settings ∧
    hooqImpls env [] Ex.flavored = .ok ([], i') ∧
    Ex.flavored.chain [0, 0] = some (e :: up) ∧ reached env settings (e :: up) = true ∧
    e :: up = l ++ d :: rest ∧ NoInert l ∧
    d.seen.filter Meta.isInert
      = [.nv (hooqPath "flavor") ⟨.path (.ofIdents ["log", "warn"]), "log :: warn"⟩] ∧
    flavorOf env ⟨.path (.ofIdents ["log", "warn"]), "log :: warn"⟩ = some F ∧
    F.bindings.keys.Nodup ∧ F.bindings.keys = ["level"] :=
  ⟨_, _, [_], _, [_], _, _, rfl, rfl, rfl, rfl, rfl,
    by intro d hd; rw [List.mem_singleton] at hd; subst hd; rfl, rfl, rfl, by decide, rfl⟩

/-- A nested `#[hooq]` item: `fn f() { #[hooq] fn g() { x?; } }`. -/
example : ∃ i' n' d up, hooqImpls env [] (.fn [] { ident := "f", output := result, text := "" }
      [.item (.fn [.path (.ofIdents ["hooq"])] { ident := "g", output := result, text := "" }
        [.expr (quest [] (var "x" 2) 2) true])]) = .ok ([], i') ∧
    (Item.fn [] { ident := "f", output := result, text := "" }
      [.item (.fn [.path (.ofIdents ["hooq"])] { ident := "g", output := result, text := "" }
        [.expr (quest [] (var "x" 2) 2) true])]).chain [0] = some (d :: up) ∧
    d.tag.isQuestion = false ∧ d.mode ≠ .dropped ∧
    i'.tree.sub [0] = some n' ∧ n'.data.attrs = [.path (.ofIdents ["hooq"])] :=
  ⟨_, _, _, _, rfl, rfl, rfl, by decide, rfl, rfl⟩

end

end Hooq
