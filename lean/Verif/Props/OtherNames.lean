import Verif.Props.ReturnType
import Verif.Props.Scope
import Verif.Props.Errors
import Mathlib.Data.List.Perm.Basic

/-!
# Types and names other than `Result`, `Ok` and `Err` (C104)

/repo/docs/en/hooq-mdbook-en/src/recipe/option.md: the three lists are given on the item.
-/

namespace Hooq

/-- The attribute says nothing about the three lists. -/
structure Meta.Aside (env : Env) (a : Attr) : Prop where
  tails : tailIdentsOf env a = none
  types : resultTypesOf env a = none
  ignored : ignoreOf env a = .keep

/-- The item has, in any order and among others, the attributes `tail_expr_idents(T..)`,
`ignore_tail_expr_idents(I..)` and `result_types(R..)`; nothing else in it is about these lists. -/
structure Item.GivesNames (env : Env) (i : Item) (T I R : List String) : Prop where
  root : ∃ ts us vs l, i.tree.data.seen.Perm (.list (hooqPath "tail_expr_idents") ts ::
      .list (hooqPath "ignore_tail_expr_idents") us :: .list (hooqPath "result_types") vs :: l) ∧
    parseStrings ts = some T ∧ (∀ x ∈ T, x.toList.head? ≠ some '!') ∧ parseStrings us = some I ∧
    parseStrings vs = some R ∧ ∀ a ∈ l, a.Aside env
  below : ∀ p n, p ≠ [] → i.tree.sub p = some n → ∀ a ∈ n.data.seen, a.Aside env

theorem chain_inner {t : RTree} {acc up : List Data} {p : List Nat} (h : t.upFrom acc p = some up) :
    ∃ l, up = l ++ t.data :: acc ∧ ∀ d ∈ l, ∃ q n, q ≠ [] ∧ t.sub q = some n ∧ n.data = d := by
  induction p generalizing t acc with
  | nil => cases t; simp [RTree.upFrom] at h; exact ⟨[], by simp [h.symm, RTree.data]⟩
  | cons j p ih =>
    obtain ⟨d, ms, ks⟩ := t
    simp only [RTree.upFrom] at h
    split at h
    · rename_i k hk
      obtain ⟨l, hl, hm⟩ := ih h
      refine ⟨l ++ [k.data], by rw [hl]; simp [RTree.data], fun e he => ?_⟩
      rcases List.mem_append.1 he with he | he
      · obtain ⟨q, n, -, h1, h2⟩ := hm e he
        exact ⟨j :: q, n, by simp, by simp [RTree.sub, hk, h1], h2⟩
      · exact ⟨[j], k, by simp, by simp [RTree.sub, hk], (List.mem_singleton.1 he).symm⟩
    · simp at h

theorem lastSet_one {α β : Type} {f : α → Option β} {l r : List α} {a : α} {x : β} (hp : l.Perm (a :: r))
    (ha : f a = some x) (hr : ∀ b ∈ r, f b = none) : lastSet f l = some x := by
  have h : (l.filterMap f).Perm [x] := by
    have := hp.filterMap f
    rwa [List.filterMap_cons, ha, List.filterMap_eq_nil_iff.2 hr] at this
  rw [lastSet, List.perm_singleton.1 h]
  rfl

theorem foldl_keep {env : Env} : ∀ {l : List Attr} {c : Option (List String)}, (∀ a ∈ l, ignoreOf env a = .keep) →
    l.foldl (fun cur a => (ignoreOf env a).apply cur) c = c
  | [], _, _ => rfl
  | a :: l, c, h => by
    rw [List.foldl_cons, h a (by simp)]
    exact foldl_keep fun b hb => h b (by simp [hb])

theorem nodeIgnore_one {env : Env} {l r : List Attr} {a : Attr} {x : List String} (hp : l.Perm (a :: r))
    (ha : ignoreOf env a = .add x) (hr : ∀ b ∈ r, ignoreOf env b = .keep) : nodeIgnore env l = some x := by
  obtain ⟨l1, l2, rfl⟩ := List.append_of_mem (hp.symm.subset (List.mem_cons_self ..) : a ∈ l)
  have hp' : (l1 ++ l2).Perm r := (List.perm_middle.symm.trans hp).cons_inv
  have h1 : ∀ b ∈ l1 ++ l2, ignoreOf env b = .keep := fun b hb => hr b (hp'.subset hb)
  rw [nodeIgnore, List.foldl_append, foldl_keep (l := l1) fun b hb => h1 b (by simp [hb]), List.foldl_cons, ha,
    foldl_keep fun b hb => h1 b (by simp [hb])]
  rfl

theorem bangs_none {l : List String} (h : ∀ x ∈ l, x.toList.head? ≠ some '!') : bangs l = [] := by
  rw [bangs, List.filterMap_eq_nil_iff]
  intro x hx
  have := h x hx
  split
  · rename_i rest e; rw [e] at this; simp at this
  · rfl

/-- What is in force everywhere in the item. -/
theorem Item.GivesNames.inForce {env : Env} {i : Item} {T I R : List String} (h : i.GivesNames env T I R) (s : Settings)
    {p : List Nat} {up : List Data} (hu : i.chain p = some up) :
    tailIdentsAt env s up = T ∧ ignoreAt env s up = I ∧ resultTypesAt env s up = R := by
  obtain ⟨l, rfl, hl⟩ := chain_inner hu
  have inner : ∀ d ∈ l, ∀ a ∈ d.seen, a.Aside env := fun d hd a ha => by
    obtain ⟨q, n, h1, h2, rfl⟩ := hl d hd
    exact h.below q n h1 h2 a ha
  obtain ⟨ts, us, vs, r, hp, h1, h2, h3, h4, h5⟩ := h.root
  have p2 := hp.trans (List.Perm.swap ..)
  have p3 : i.tree.data.seen.Perm (.list (hooqPath "result_types") vs :: .list (hooqPath "tail_expr_idents") ts ::
      .list (hooqPath "ignore_tail_expr_idents") us :: r) :=
    hp.trans (((List.Perm.swap ..).cons _).trans (List.Perm.swap ..))
  have a1 : tailIdentsOf env (.list (hooqPath "tail_expr_idents") ts) = some T := by
    have e : T.filter (fun s => s.toList.head? ≠ some '!') = T := List.filter_eq_self.2 fun x hx => by simpa using h2 x hx
    simp only [tailIdentsOf, whenNamed, List.map_cons, List.map_nil, List.mem_singleton, if_true, h1, Option.map_some, e]
  have a2 : ignoreOf env (.list (hooqPath "ignore_tail_expr_idents") us) = .add I := by
    simp [ignoreOf, hooqPath, Path.ofIdents, h3]
  have a3 : resultTypesOf env (.list (hooqPath "result_types") vs) = some R := by
    simp [resultTypesOf, whenNamed, h4]
  have b1 : ignoreOf env (.list (hooqPath "tail_expr_idents") ts) = .keep := by
    simp [ignoreOf, h1, bangs_none h2]
  have b2 : ignoreOf env (.list (hooqPath "result_types") vs) = .keep := by
    simp [ignoreOf, hooqPath, Path.ofIdents]
  have over {β : Type} (f : Attr → Option β) (hf : ∀ a : Attr, a.Aside env → f a = none) (x : β)
      (hx : lastSet f i.tree.data.seen = some x) (y : β) :
      (lastSet f (attrsOver (l ++ [i.tree.data]))).getD y = x := by
    have : lastSet f (attrsOver (l ++ [i.tree.data])) = some x := by
      rw [lastSet] at hx ⊢
      rw [attrsOver, List.reverse_append, List.reverse_singleton, List.singleton_append, List.flatMap_cons,
        List.filterMap_append, (List.filterMap_eq_nil_iff.2 fun a ha => ?_ : (l.reverse.flatMap Data.seen).filterMap f = []),
        List.append_nil, hx]
      obtain ⟨d, hd, ha⟩ := List.mem_flatMap.1 ha
      exact hf a (inner d (List.mem_reverse.1 hd) a ha)
    rw [this]
    rfl
  refine ⟨over _ (fun a ha => ha.tails) T (lastSet_one hp a1 ?_) _, ?_, over _ (fun a ha => ha.types) R (lastSet_one p3 a3 ?_) _⟩
  · simp only [List.mem_cons, forall_eq_or_imp]
    exact ⟨by simp [tailIdentsOf, whenNamed, hooqPath, Path.ofIdents], by simp [tailIdentsOf, whenNamed, hooqPath, Path.ofIdents],
      fun a ha => (h5 a ha).tails⟩
  · have e : (l ++ [i.tree.data]).findSome? (fun d => nodeIgnore env d.seen) = some I := by
      have e0 : l.findSome? (fun d => nodeIgnore env d.seen) = none :=
        List.findSome?_eq_none_iff.2 fun d hd => foldl_keep fun a ha => (inner d hd a ha).ignored
      rw [List.findSome?_append, e0, Option.none_or]
      simp only [List.findSome?_cons, nodeIgnore_one p2 a2 (by
        simp only [List.mem_cons, forall_eq_or_imp]
        exact ⟨b1, b2, fun a ha => (h5 a ha).ignored⟩)]
    rw [ignoreAt, e]
    rfl
  · simp only [List.mem_cons, forall_eq_or_imp]
    exact ⟨by simp [resultTypesOf, whenNamed, hooqPath, Path.ofIdents], by simp [resultTypesOf, whenNamed, hooqPath, Path.ofIdents],
      fun a ha => (h5 a ha).types⟩

/-- The innermost function or closure around has a declared return type that ends in one of the names. -/
def ReturnsOne (R : List String) (up : List Data) : Prop := ∃ f, innermostFn up = some f ∧ f.output.EndsIn R

/-- C104, for the ends of blocks.  Whatever the flavor says about names, the lists on the item decide in the whole item,
in functions, closures and modules inside of it too. -/
theorem C104_tail {env : Env} {args : List Meta} {s : Settings} {i i' : Item}
    {uses : List Path} (hs : rootSettings env args = .ok s) (hb : s.bindings.keys.Nodup)
    (h : hooqImpls env args i = .ok (uses, i')) {T I R : List String} (hn : i.GivesNames env T I R)
    {p : List Nat} {d : Data} {up : List Data}
    (hu : i.chain p = some (d :: up)) (hr : reached env s (d :: up) = true)
    {tk : TailKind} (hq : d.edge.tail = some tk) (hm : d.mode ≠ .untouched)
    (he : hookedAt env s (d :: up) .tail = true) :
    ∃ n', i'.tree.sub p = some n' ∧ (n'.tailMarks ≠ [] ↔ endsIn n'.bare.callee T = true ∨
      tk = .fnTail ∧ ReturnsOne R (d :: up) ∧ endsIn n'.bare.callee I = false) := by
  obtain ⟨e1, e2, e3⟩ := hn.inForce s hu
  have := C72_tail hs hb h hu hr hq hm he
  rwa [e1, e2, ReturnsResult, e3] at this

/-- C104, for `return`. -/
theorem C104_return {env : Env} {args : List Meta} {s : Settings} {i i' : Item}
    {uses : List Path} (hs : rootSettings env args = .ok s) (hb : s.bindings.keys.Nodup)
    (h : hooqImpls env args i = .ok (uses, i')) {T I R : List String} (hn : i.GivesNames env T I R)
    {p : List Nat} {d : Data} {up : List Data}
    (hu : i.chain p = some (d :: up)) (hr : reached env s (d :: up) = true) (hq : d.tag = .ret)
    (he : hookedAt env s (d :: up) .ret = true) :
    ∃ n', i'.tree.sub p = some n' ∧ ∀ k' ∈ n'.kids, (k'.marks ≠ [] ↔ endsIn k'.bare.callee T = true ∨
      ReturnsOne R (d :: up) ∧ endsIn k'.bare.callee I = false) := by
  obtain ⟨e1, e2, e3⟩ := hn.inForce s hu
  have := C72_return hs hb h hu hr hq he
  rwa [e1, e2, ReturnsResult, e3] at this

/-- C104: ignoring the name of a constant has no effect.  At the end of a function or closure that returns one of the
types, a plain path such as `None` gets a hook, even if its name is ignored: only calls are ignored. -/
theorem C104_constant_tail {env : Env} {args : List Meta} {s : Settings} {i i' : Item}
    {uses : List Path} (hs : rootSettings env args = .ok s) (hb : s.bindings.keys.Nodup)
    (h : hooqImpls env args i = .ok (uses, i')) {T I R : List String} (hn : i.GivesNames env T I R)
    {p : List Nat} {d : Data} {up : List Data}
    (hu : i.chain p = some (d :: up)) (hr : reached env s (d :: up) = true)
    (hq : d.edge.tail = some .fnTail) (hm : d.mode ≠ .untouched)
    (he : hookedAt env s (d :: up) .tail = true) (hR : ReturnsOne R (d :: up)) {x : Path} (hx : d.tag = .path x) :
    ∃ n', i'.tree.sub p = some n' ∧ n'.tailMarks ≠ [] := by
  obtain ⟨n', h1, h2⟩ := C104_tail hs hb h hn hu hr hq hm he
  refine ⟨n', h1, h2.2 (.inr ⟨rfl, hR, ?_⟩)⟩
  obtain ⟨n, h3, h4⟩ := C05_question_kept_at hs hb h hu
  obtain rfl : n' = n := Option.some.inj (h1.symm.trans h3)
  rw [hx] at h4
  have : n'.bare.callee = none := by simp [RTree.bare, RTree.callee, h4]
  rw [this]
  rfl

/-- C104: the same behind `return`. -/
theorem C104_constant_return {env : Env} {args : List Meta} {s : Settings} {i i' : Item}
    {uses : List Path} (hs : rootSettings env args = .ok s) (hb : s.bindings.keys.Nodup)
    (h : hooqImpls env args i = .ok (uses, i')) {T I R : List String} (hn : i.GivesNames env T I R)
    {p : List Nat} {d c : Data} {up : List Data}
    (hu : i.chain p = some (d :: up)) (hr : reached env s (d :: up) = true) (hq : d.tag = .ret)
    (he : hookedAt env s (d :: up) .ret = true) (hR : ReturnsOne R (d :: up)) {x : Path}
    (hc : i.chain (p ++ [0]) = some (c :: d :: up)) (hx : c.tag = .path x) :
    ∃ k', i'.tree.sub (p ++ [0]) = some k' ∧ k'.marks ≠ [] := by
  obtain ⟨n', h1, h2⟩ := C104_return hs hb h hn hu hr hq he
  obtain ⟨k', h3, h4⟩ := C05_question_kept_at hs hb h hc
  have hk : k' ∈ n'.kids := by
    rw [sub_append h1] at h3
    obtain ⟨d', ms, ks⟩ := n'
    cases ks with
    | nil => simp [RTree.sub] at h3
    | cons k ks => simp [RTree.sub] at h3; subst h3; simp [RTree.kids]
  refine ⟨k', h3, (h2 k' hk).2 (.inr ⟨hR, ?_⟩)⟩
  rw [hx] at h4
  have : k'.bare.callee = none := by simp [RTree.bare, RTree.callee, h4]
  rw [this]
  rfl

section
open Ex
set_option maxRecDepth 10000

/-- `Option` -/
def Ex.option : RetType := .path (.ofIdents ["Option"])

/-- The item of the recipe, in short:
```
#[hooq::method(.my_inspect())]
#[hooq::tail_expr_idents("Some")]
#[hooq::ignore_tail_expr_idents("None")]
#[hooq::result_types("Option")]
fn main() {
    fn a() -> Option { g()?; if c { Some(v) } else { None } }
    fn b() -> Option { return None; w }
    fn r() -> Result { Ok(x) }
}
``` -/
def Ex.optionRecipe : Item :=
  .fn [.list (hooqPath "method") [.punct '.' (sp 1 1), .ident "my_inspect" (sp 1 2), .group .paren [] (sp 1 3)],
      .list (hooqPath "tail_expr_idents") [.lit (.str "Some") (sp 2 1)],
      .list (hooqPath "ignore_tail_expr_idents") [.lit (.str "None") (sp 3 1)],
      .list (hooqPath "result_types") [.lit (.str "Option") (sp 4 1)]]
    { ident := "main", output := .none, text := "fn main ()" }
    [.item (.fn [] { ident := "a", output := option, text := "fn a () -> Option" }
       [.expr (quest [] (call "g" [] 6) 6) true,
        .expr (.mk [] (sp 7 1) (.if_ (var "c" 7) [.expr (call "Some" [var "v" 7] 7) false]
          (some (.mk [] (sp 7 20) (.block "" [.expr (var "None" 7) false]))))) false]),
     .item (.fn [] { ident := "b", output := option, text := "fn b () -> Option" }
       [.expr (.mk [] (sp 8 1) (.ret (some (var "None" 8)))) true, .expr (var "w" 8) false]),
     .item (.fn [] { ident := "r", output := result, text := "fn r () -> Result" } [.expr (call "Ok" [var "x" 9] 9) false])]

theorem Ex.optionRecipe_names : optionRecipe.GivesNames env ["Some"] ["None"] ["Option"] where
  root := by
    refine ⟨_, _, _, [_], (List.perm_append_comm (l₁ := [_]) (l₂ := [_, _, _])), rfl, by decide, rfl, rfl, ?_⟩
    intro a ha
    rw [List.mem_singleton.1 ha]
    exact ⟨rfl, rfl, rfl⟩
  below := fun p n hp h a ha => by
    obtain ⟨j, q, rfl⟩ : ∃ j q, p = j :: q := by cases p with | nil => exact absurd rfl hp | cons j q => exact ⟨j, q, rfl⟩
    have hk : ∀ k ∈ optionRecipe.tree.kids, k.allNodes (fun n => n.data.attrs.isEmpty) = true := by decide
    obtain ⟨k, h1, h2⟩ : ∃ k, optionRecipe.tree.kids[j]? = some k ∧ k.sub q = some n := by
      generalize optionRecipe.tree = t at h
      obtain ⟨d, ms, ks⟩ := t
      simp only [RTree.sub] at h
      split at h
      · rename_i k hk; exact ⟨k, hk, h⟩
      · simp at h
    have := allNodes_sub (hk k (List.mem_of_getElem? h1)) h2
    simp only [List.isEmpty_iff] at this
    have ha := seen_sub ha
    rw [this] at ha
    simp at ha

/-- In it, `g()?`, `Some(v)`, the whole `if` (so that a `Some` passes two hooks), the `None` behind `return` and `w` get a
hook, but neither the `None` inside the `if` nor the end of `r`. -/
example : (hooqImpls env [] Ex.optionRecipe).toOption.map (fun r =>
    [[0, 0, 0], [0, 1, 1], [0, 1], [1, 0, 0], [1, 1], [0, 1, 2, 0], [2, 0]].map
    fun p => (r.2.tree.sub p).map fun n => n.marks.length) =
    some [some 1, some 1, some 1, some 1, some 1, some 0, some 0] := by decide +kernel

/-- The hypotheses of the theorems are met there, of `C104_constant_return` by `return None`, and at the end of `b`. -/
example : ∃ i' d c up d' up', hooqImpls env [] Ex.optionRecipe = .ok ([], i') ∧
    Ex.optionRecipe.chain [1, 0] = some (d :: up) ∧ d.tag = .ret ∧
    reached env settings (d :: up) = true ∧ hookedAt env settings (d :: up) .ret = true ∧
    ReturnsOne ["Option"] (d :: up) ∧ Ex.optionRecipe.chain ([1, 0] ++ [0]) = some (c :: d :: up) ∧
    c.tag = .path (.ofIdents ["None"]) ∧
    Ex.optionRecipe.chain [1, 1] = some (d' :: up') ∧ d'.edge.tail = some .fnTail ∧ d'.mode ≠ .untouched ∧
    reached env settings (d' :: up') = true ∧ hookedAt env settings (d' :: up') .tail = true ∧
    ReturnsOne ["Option"] (d' :: up') ∧ d'.tag = .path (.ofIdents ["w"]) := by
  have h : (hooqImpls env [] Ex.optionRecipe).toOption.map (fun r => r.1) = some [] := by decide +kernel
  cases e : hooqImpls env [] Ex.optionRecipe with
  | error x => rw [e] at h; simp [Except.toOption] at h
  | ok r =>
    obtain ⟨uses, i'⟩ := r
    rw [e] at h
    simp only [Except.toOption, Option.map_some, Option.some.injEq] at h
    subst h
    refine ⟨i', _, _, _, _, _, rfl, rfl, rfl, by decide +kernel, by decide +kernel, ⟨_, rfl, ?_⟩, rfl, rfl, rfl, rfl, by decide,
      by decide +kernel, by decide +kernel, ⟨_, rfl, ?_⟩, rfl⟩
    all_goals exact ⟨_, _, rfl, rfl, by simp⟩

end

end Hooq
