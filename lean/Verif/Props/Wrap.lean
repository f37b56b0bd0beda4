import Verif.Spec.Wrap
import Verif.Props.Chain
import Verif.Props.Reader
import Verif.Props.OtherNames

/-!
# Methods that are expressions around the operand always work (C105)
-/

namespace Hooq

/-- Expanding the text of a method gives an expression. -/
theorem wrap_expand {v : Site} (hl : ∃ l, Listing v.binding l) {ms : List Method} (h : WrapStack v.binding ms) :
    ∃ out, StackText v ms out ∧ Form emitted .expr out := by
  cases ms with
  | nil => exact h.elim
  | cons m rest =>
    obtain ⟨ts, exc, rfl, h⟩ := h
    obtain ⟨o, h1, h2⟩ := h.expand (σ := VarText v (StackText v rest))
      (by
        rintro ts ⟨x, s1, s2, rfl, hx⟩
        obtain ⟨o, h1, h2, -⟩ := known_text hl (P := StackText v rest) hx
        exact ⟨x, s1, s2, o, rfl, h1, h2⟩)
      (by
        rintro ts ⟨x, s1, s2, rfl, m, h1, h2, h3, hx⟩
        obtain ⟨o, k1, -, k3⟩ := known_text hl (P := StackText v rest) (.inl ⟨m, h1, hx⟩)
        exact ⟨x, s1, s2, o, rfl, k1, k3 ⟨m, h2, h3, hx⟩⟩)
      (by
        rintro ts ⟨hm, x, s1, s2, rfl, hx⟩
        obtain ⟨o, h1, h2⟩ := stack_expand hl hm
        exact ⟨x, s1, s2, o, rfl, .soFar hx h1, h2⟩)
      (fun ts hc => closed_subst (fun x hx => by
        obtain ⟨o, h1, -⟩ := known_text hl (P := StackText v rest) hx
        exact ⟨o, h1⟩) ts hc) .nil
    simp only [List.append_nil] at h1
    exact ⟨o, h1, h2⟩

theorem WrapStack.replaces {env : Env} {s : Settings} {up : List Data} {b : String → Option Value}
    (h : WrapStack b (methodStack env s up)) : ∃ ts exc, methodAt env s up = .replace ts exc := by
  rw [methodStack_eq] at h
  obtain ⟨ts, exc, e, -⟩ := h
  exact ⟨ts, exc, e⟩

/-- C105, text.  Where the method in force is an expression around the operand, every hook is an expression that stands
in place of its operand. -/
theorem C105_form {env : Env} {args : List Meta} {s : Settings} {i i' : Item} {uses : List Path}
    (hs : rootSettings env args = .ok s) (hn : s.bindings.keys.Nodup)
    (h : hooqImpls env args i = .ok (uses, i')) {p : List Nat} {d : Data} {up : List Data}
    (hu : i.chain p = some (d :: up)) (hr : reached env s (d :: up) = true)
    (hc : ∀ k, WrapStack (fun x => bindingAt env s x (targetUp k (d :: up)))
      (methodStack env s (targetUp k (d :: up)))) :
    ∃ n', i'.tree.sub p = some n' ∧ ∀ m ∈ n'.marks, m.1.mode = .replace ∧ Form emitted .expr m.1.toks := by
  obtain ⟨n', h1, h2⟩ := C08_lexical_hooks hs hn h hu hr
  refine ⟨n', h1, fun m hm => ?_⟩
  obtain ⟨_, _, _, sp, c, h3, h4⟩ := h2 m hm
  obtain ⟨out, h5, h6⟩ := h4.toks
  obtain ⟨out', h7, h8⟩ := wrap_expand (v := siteAt env s (targetUp m.1.kind (d :: up)) m.1.kind sp c)
    (bindingAt_listing env s _) (hc m.1.kind)
  obtain rfl := stackText_unique _ _ _ _ h5 h7
  obtain ⟨ts, exc, hme⟩ := (hc m.1.kind).replaces
  rw [hme] at h6
  exact ⟨by rw [h4.mode, hme]; rfl, by rw [h6]; exact h8.moved (moved_map _ _)⟩

/-- Such a method can be used at every target, whatever the operand is. -/
theorem wrap_canHook {env : Env} (hr : ReadsExprs env) {s : Settings} {up : List Data}
    (h : WrapStack (fun x => bindingAt env s x up) (methodStack env s up)) (k : Kind) (sp : Span) (n : Nat) (rear : Rear) :
    CanHook env s up k sp n rear := by
  obtain ⟨out, h1, h2⟩ := wrap_expand (v := siteAt env s up k sp n) (bindingAt_listing env s up) h
  obtain ⟨ts, exc, hm⟩ := h.replaces
  refine ⟨out, h1, ?_⟩
  rw [hm]
  exact hr _ (h2.moved (moved_map _ _)) rear

/-- C105.  With a parser that reads expressions, an item whose attributes are well-formed and whose methods, wherever they
are to be used, are expressions around the operand always expands, also where a cast, an open range or the like is to be
hooked. -/
theorem C105_expands {env : Env} {args : List Meta} {s : Settings} {i : Item}
    (hs : rootSettings env args = .ok s) (hn : s.bindings.keys.Nodup) (hsrc : i.IsSource) (hread : ReadsExprs env)
    (hok : ∀ p d up, i.chain p = some (d :: up) → reached env s (d :: up) = true →
      (∀ a ∈ d.seen, AttrOk env a) ∧ ((∃ k, hookedAt env s (d :: up) k = true) →
        WrapStack (fun x => bindingAt env s x (d :: up)) (methodStack env s (d :: up)))) :
    ∃ r, hooqImpls env args i = .ok r := by
  cases h : hooqImpls env args i with
  | ok r => exact ⟨r, rfl⟩
  | error e =>
    exfalso
    rcases C18_failure_cause hsrc h with h | ⟨s', h1, h2⟩
    · rw [hs] at h; cases h
    · rw [hs] at h1
      cases h1
      obtain ⟨p, n, up, -, h3, h4, h5⟩ := h2 hn
      obtain ⟨k1, k2⟩ := hok p n.data up h3 h4
      cases h5 with
      | attr a ha hb => exact hb (k1 a ha)
      | question q cnt k k' ctx c c' _ _ _ hh hb => exact hb (wrap_canHook hread (k2 ⟨_, hh⟩) ..)
      | ret cnt k k' ctx c c' _ _ _ _ hh hb => exact hb (wrap_canHook hread (k2 ⟨_, hh⟩) ..)
      | tail tk cnt t1 _ _ _ _ hh hb => exact hb (wrap_canHook hread (k2 ⟨_, hh⟩) ..)

/-- The reader of `Props/Reader.lean` reads expressions. -/
theorem reading_exprs (env : Env) : ReadsExprs env.reading := fun ts h rear => by
  have hr := (Reader.read_form h).final .expr (.inr rfl)
  simp only [Env.reading, Reader.shape]
  split
  · exact ⟨_, rfl⟩
  · rw [if_pos hr]; exact ⟨_, rfl⟩

theorem methodStack_inner {env : Env} {s : Settings} {l up : List Data} (h : ∀ d ∈ l, ∀ a ∈ d.seen, methodOf env a = none) :
    methodStack env s (l ++ up) = methodStack env s up := by
  induction l with
  | nil => rfl
  | cons d l ih =>
    rw [List.cons_append]
    simp only [methodStack]
    rw [lastSet_eq_none (h d (by simp)), ih fun d' hd' => h d' (by simp [hd'])]
    rfl

/-- C105 for the documented use.  One attribute of the item gives the method, among others that do not; then it is enough
that the text of that attribute is an expression around the operand. -/
theorem C105_on_item {env : Env} {args : List Meta} {s : Settings} {i : Item} {a : Attr} {l : List Attr} {m : Method}
    (hs : rootSettings env args = .ok s) (hn : s.bindings.keys.Nodup) (hsrc : i.IsSource) (hread : ReadsExprs env)
    (hp : i.tree.data.seen.Perm (a :: l)) (ha : methodOf env a = some m) (hl : ∀ b ∈ l, methodOf env b = none)
    (hb : ∀ p n, p ≠ [] → i.tree.sub p = some n → ∀ b ∈ n.data.seen, methodOf env b = none)
    (hok : ∀ p n, i.tree.sub p = some n → ∀ b ∈ n.data.seen, AttrOk env b)
    (hm : ∀ b : String → Option Value, (∀ x, s.bindings.get? x ≠ none → b x ≠ none) → WrapStack b [m, s.method]) :
    ∃ r, hooqImpls env args i = .ok r := by
  refine C105_expands hs hn hsrc hread fun p d up hu _ => ⟨seen_of_chain hok hu d (by simp), fun _ => ?_⟩
  obtain ⟨l', h1, h2⟩ := chain_inner hu
  have : methodStack env s (d :: up) = [m, s.method] := by
    rw [h1, methodStack_inner]
    · simp only [methodStack]
      rw [lastSet_one hp ha hl]
      rfl
    · intro d' hd'
      obtain ⟨q, n, hq, h3, rfl⟩ := h2 d' hd'
      exact hb q n hq h3
  rw [this]
  exact hm _ fun x hx => binding_kept hx

section
open Ex
set_option maxRecDepth 10000

/-- `#[hooq::method(wrapper($expr))]` -/
def Ex.wrapAttr : Attr := .list (hooqPath "method") [tkId "wrapper", tkParen (tkVar "expr")]

/-- `#[hooq::method(wrapper($expr))] fn f() -> Result { return x as T; }` -/
def Ex.wrapItem : Item :=
  .fn [wrapAttr] { ident := "f", output := result, text := "fn f () -> Result" }
    [.expr (.mk [] (sp 2 1) (.ret (some (.mk [] (sp 2 8) (.cast (var "x" 2) "T"))))) true]

/-- The documented method is an expression around the operand. -/
theorem Ex.wrap_stack (b : String → Option Value) (rest : List Method) :
    WrapStack b (.replace [tkId "wrapper", tkParen (tkVar "expr")] false :: rest) :=
  ⟨_, _, rfl, .high (.apply (p := [tkId "wrapper"]) (t := [tkParen (tkVar "expr")]) (.path (.name _ (by decide)))
    (.call _ (.oneArg (.piece (isVar_tk (known_meta .expr (by decide) (named_of (l := ["expr"]) (by decide) (by decide))))))))⟩

theorem Ex.wrap_below {p : List Nat} {n : RTree} (hp : p ≠ []) (h : wrapItem.tree.sub p = some n) : n.data.seen = [] := by
  obtain ⟨j, q, rfl⟩ : ∃ j q, p = j :: q := by cases p with | nil => exact absurd rfl hp | cons j q => exact ⟨j, q, rfl⟩
  have hk : ∀ k ∈ wrapItem.tree.kids, k.allNodes (fun n => n.data.attrs.isEmpty) = true := by decide
  obtain ⟨k, h1, h2⟩ : ∃ k, wrapItem.tree.kids[j]? = some k ∧ k.sub q = some n := by
    generalize wrapItem.tree = t at h
    obtain ⟨d, ms, ks⟩ := t
    simp only [RTree.sub] at h
    split at h
    · rename_i k hk; exact ⟨k, hk, h⟩
    · simp at h
  have := allNodes_sub (hk k (List.mem_of_getElem? h1)) h2
  simp only [List.isEmpty_iff] at this
  refine List.eq_nil_iff_forall_not_mem.2 fun a ha => ?_
  have ha := seen_sub ha
  rw [this] at ha
  simp at ha

/-- `return x as T`, which no call can be put behind (`C18_cast_panics`), can be wrapped. -/
example : ∃ r, hooqImpls env.reading [] wrapItem = .ok r := by
  refine C105_on_item (s := settings) (a := wrapAttr) (l := []) rfl (by decide) (fun p n hs => ?_) (reading_exprs env) (.refl _)
    rfl (by simp) (fun p n hp h b hb => ?_) (fun p n h b hb => ?_) fun b _ => wrap_stack b _
  · simpa using allNodes_sub (t := wrapItem.tree) (f := fun n => !n.built) rfl hs
  · rw [wrap_below hp h] at hb; simp at hb
  · by_cases hp : p = []
    · subst hp
      obtain rfl := Option.some.inj h
      obtain rfl := List.mem_singleton.1 (show b ∈ [wrapAttr] from hb)
      exact .inr (.inl rfl)
    · rw [wrap_below hp h] at hb; simp at hb

/-- The hook there, by `C105_form`. -/
example : ∃ i' n' m, hooqImpls env.reading [] wrapItem = .ok ([], i') ∧ i'.tree.sub [0, 0] = some n' ∧
    n'.marks = [m] ∧ m.1.mode = .replace ∧ Form emitted .expr m.1.toks := by
  obtain ⟨n', h1, h2⟩ := C105_form (env := env.reading) (args := []) (s := settings) (i := wrapItem) (p := [0, 0]) rfl
    (by decide) rfl rfl rfl (fun k => by cases k <;> exact wrap_stack _ _)
  obtain rfl := Option.some.inj h1
  exact ⟨_, _, _, rfl, rfl, rfl, h2 _ (by exact List.mem_cons_self ..)⟩

end

end Hooq
