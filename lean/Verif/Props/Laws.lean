import Verif.Proof.Attach
import Verif.Props.Empty

/-!
# Exact laws (C60, C61)

Companions of claims that do not hold as stated (C04, C13, C14, C18): what the macro
does in every case.
-/

namespace Hooq

/-! ## C60 -/

/-- The `?` at the position is hooked by a method that consumes it. -/
def consumedAt (env : Env) (s : Settings) (d : Data) (up : List Data) : Bool :=
  match d.tag with
  | .question _ _ => hookedAt env s (d :: up) .question && (methodAt env s (d :: up)).exc
  | _ => false

/-- The node as it should be after the expansion, apart from its hooks. -/
def Data.after (env : Env) (s : Settings) (d : Data) (up : List Data) : Data :=
  if consumedAt env s d up then
    { d with attrs := [], tag := match d.tag with | .question q _ => .question q true | t => t }
  else { d with attrs := d.kept }

/-- C60.  The effect of an expansion on the code, exactly.  All code but hooks and
attributes is kept.  A node that the macro reaches has the same place, kind and number
of parts as before, and its attributes are: none if it is a `?` that was consumed, and
`Data.kept` otherwise.  A node that is not reached is literally the same. -/
theorem C60_effect {env : Env} {args : List Meta} {s : Settings} {i i' : Item}
    {uses : List Path} (hs : rootSettings env args = .ok s) (hb : s.bindings.keys.Nodup)
    (h : hooqImpls env args i = .ok (uses, i')) :
    cleanItem true i' = cleanItem true i ∧
    ∀ p d up, i.chain p = some (d :: up) →
      if reached env s (d :: up) then
        ∃ n n', i.tree.sub p = some n ∧ i'.tree.sub p = some n' ∧ n'.data = d.after env s up ∧
          n'.kids.length = n.kids.length
      else i'.tree.sub p = i.tree.sub p := by
  refine ⟨C04_code_kept h, fun p d up hu => ?_⟩
  split
  · rename_i hr
    obtain ⟨c', hw⟩ := expansion hs h
    obtain ⟨n, n', h1, h2, h3, h4, h5, -⟩ := node_at hb (agrees_new env s) hw hu hr
    refine ⟨n, n', h1, h2, ?_, h4⟩
    rw [h5, Data.after, consumedAt]
    cases d.tag <;> simp
  · rename_i hr
    exact unreached_unchanged hs h hu (by simpa using hr)

/-- C60.  Which foreign attributes are lost, exactly: on a reached node all of them, if
it is a consumed `?` or a file in a macro body (whose inner attributes they are), and
none otherwise. -/
theorem C60_foreign {env : Env} {args : List Meta} {s : Settings} {i i' : Item}
    {uses : List Path} (hs : rootSettings env args = .ok s) (hb : s.bindings.keys.Nodup)
    (h : hooqImpls env args i = .ok (uses, i')) {p : List Nat} {d : Data} {up : List Data}
    (hu : i.chain p = some (d :: up)) (hr : reached env s (d :: up) = true) :
    ∃ n', i'.tree.sub p = some n' ∧
      foreign n'.data.attrs =
        if d.mode = .dropped ∨ consumedAt env s d up = true then [] else foreign d.attrs := by
  have h1 := (C60_effect hs hb h).2 p d up hu
  rw [if_pos hr] at h1
  obtain ⟨n, n', -, h2, h3, -⟩ := h1
  refine ⟨n', h2, ?_⟩
  rw [h3, Data.after]
  by_cases hc : consumedAt env s d up = true
  · simp [hc, foreign]
  · simp only [hc, if_false, or_false, Bool.false_eq_true]
    cases hm : d.mode <;> simp [Data.kept, hm, foreign]
    split <;> simp

/-- C60.  Which inert attributes are left, exactly: those on nodes whose attributes are
not looked at. -/
theorem C60_inert {env : Env} {args : List Meta} {s : Settings} {i i' : Item}
    {uses : List Path} (hs : rootSettings env args = .ok s) (hb : s.bindings.keys.Nodup)
    (h : hooqImpls env args i = .ok (uses, i')) {p : List Nat} {d : Data} {up : List Data}
    (hu : i.chain p = some (d :: up)) (hr : reached env s (d :: up) = true) :
    ∃ n', i'.tree.sub p = some n' ∧ ∀ a, a.isInert = true →
      (a ∈ n'.data.attrs ↔ a ∈ d.attrs ∧
        (d.mode = .untouched ∨ d.mode = .tailOnly ∧ d.edge.tail = none) ∧ consumedAt env s d up = false) := by
  have h1 := (C60_effect hs hb h).2 p d up hu
  rw [if_pos hr] at h1
  obtain ⟨n, n', -, h2, h3, -⟩ := h1
  refine ⟨n', h2, fun a ha => ?_⟩
  rw [h3, Data.after]
  by_cases hc : consumedAt env s d up = true
  · simp [hc]
  · simp only [hc, if_false, Bool.false_eq_true]
    cases hm : d.mode <;> simp [Data.kept, hm, ha]
    split <;> simp_all

/-! ## C61 -/

/-- C61.  When an expansion succeeds, exactly.  Suppose that at all positions that are
reached the attributes are well-formed, and the method, where it is to be used, is an
insertion that expands and re-parses.  Then the expansion succeeds if and only if
nothing that is to be hooked is, as written, an expression that cannot carry a method
call. -/
theorem C61_expands_iff {env : Env} {args : List Meta} {s : Settings} {i : Item}
    (hs : rootSettings env args = .ok s) (hn : s.bindings.keys.Nodup) (hsrc : i.IsSource)
    (hord : AllInOrder env s i.tree []) :
    (∃ r, hooqImpls env args i = .ok r) ↔
      ¬ ∃ p n up, i.tree.sub p = some n ∧ i.chain p = some (n.data :: up) ∧
        reached env s (n.data :: up) = true ∧ Blocked env s n up := by
  obtain ⟨h1, h2⟩ := gwalk_attach hn i.tree {} hsrc (wfItem {} i) (agrees_new env s)
    (fun hv => by rw [reached_cons, hv]; rfl) hord
  constructor
  · rintro ⟨⟨uses, i'⟩, h⟩
    obtain ⟨c', hw⟩ := expansion hs h
    exact (h2 _ _ hw).1
  · intro hb
    cases hw : walkItem env (Ctx.new s) i {} with
    | ok r => exact ⟨(s.traitUses, r.1), by simp [hooqImpls, hs, hw, bind, Except.bind]⟩
    | error e =>
      refine absurd (h1 e ?_) hb
      rw [walk_tree, hw]
      rfl

theorem plain_inOrder {env : Env} {s : Settings} {i : Item}
    (hm : MethodWorks env s.method fun k => s.bindings.get? k) (hins : s.method.mode = .insert)
    (hplain : ∀ p n, i.tree.sub p = some n → ∀ a ∈ n.data.attrs, a.isInert = false) :
    AllInOrder env s i.tree [] := by
  intro p d up hu hr
  have hbare : Bare (d :: up) := by
    intro d' hd' a ha
    rcases chain_mem hu hd' with h | ⟨q, n, h1, rfl⟩
    · simp at h
    · exact hplain q n h1 a ha
  refine ⟨fun a ha => .inl (hbare d (by simp) a (seen_sub ha)), fun _ => ?_⟩
  have hmeth : methodAt env s (d :: up) = s.method := by
    rw [methodAt, lastSet_eq_none fun a ha => (inert_none (hbare.over a ha)).1]
    rfl
  cases hsm : s.method with
  | replace ts exc => rw [hsm] at hins; cases hins
  | insert dot ts exc =>
    refine ⟨dot, ts, exc, by rw [hmeth, hsm], fun k sp n => ?_⟩
    obtain ⟨out, h1, h2⟩ := hm (siteAt env s (d :: up) k sp n) (funext hbare.binding)
    rw [hsm] at h2
    rw [hbare.stack]
    exact ⟨out, h1, h2⟩

/-- C61 for an item without inert attributes: under a method that works, it expands if
and only if nothing that is to be hooked is a cast, an open range, or another expression
that cannot carry a method call. -/
theorem C61_plain_expands_iff {env : Env} {args : List Meta} {s : Settings} {i : Item}
    (hs : rootSettings env args = .ok s) (hn : s.bindings.keys.Nodup) (hsrc : i.IsSource)
    (hm : MethodWorks env s.method fun k => s.bindings.get? k) (hins : s.method.mode = .insert)
    (hplain : ∀ p n, i.tree.sub p = some n → ∀ a ∈ n.data.attrs, a.isInert = false) :
    (∃ r, hooqImpls env args i = .ok r) ↔
      ¬ ∃ p n up, i.tree.sub p = some n ∧ i.chain p = some (n.data :: up) ∧
        reached env s (n.data :: up) = true ∧ Blocked env s n up :=
  C61_expands_iff hs hn hsrc (plain_inOrder hm hins hplain)

/-! ## Witnesses -/

section
open Ex
set_option maxRecDepth 10000

theorem Ex.default_works : MethodWorks env settings.method fun k => settings.bindings.get? k :=
  preset_works (helpers := [tkId "helpers"]) (ft := ⟨true, true, true, true⟩) ⟨trivial, trivial⟩
    (.top (List.mem_cons_self ..)) (by decide) (fun _ => ⟨.whole, rfl, by decide⟩)
    (fun _ _ _ => ⟨.same, rfl, by decide⟩)

/-- An item with a cast that is not hooked expands:
`fn f() -> Result { let a = x as T; return Err(y?); Err(z)  }`. -/
def Ex.castLocal : Item :=
  .fn [] { ident := "f", output := result, text := "fn f () -> Result" }
    [.localInit [] "a" (.mk [] (sp 2 8) (.cast (var "x" 2) "T")) none,
     .expr (.mk [] (sp 3 1) (.ret (some (call "Err" [quest [] (var "y" 3) 3] 3)))) true,
     .expr (call "Err" [var "z" 4] 4) false]

/-- Both sides of `C61_plain_expands_iff` occur: `Ex.castLocal` expands, `Ex.castItem`
does not, and both meet the hypotheses. -/
example : (∃ r, hooqImpls env [] Ex.castLocal = .ok r) ∧ ¬ (∃ r, hooqImpls env [] Ex.castItem = .ok r) ∧
    ∀ i, i = Ex.castLocal ∨ i = Ex.castItem → i.IsSource ∧
      ∀ p n, i.tree.sub p = some n → ∀ a ∈ n.data.attrs, a.isInert = false := by
  refine ⟨⟨_, rfl⟩, ?_, ?_⟩
  · rintro ⟨r, h⟩
    cases C18_cast_panics.1.symm.trans h
  · intro i hi
    have h1 : i.tree.allNodes (fun n => !n.built && n.data.attrs.isEmpty) = true := by
      rcases hi with rfl | rfl <;> rfl
    refine ⟨fun p n hs => ?_, fun p n hs a ha => ?_⟩
    · have := allNodes_sub h1 hs
      simp only [Bool.and_eq_true, Bool.not_eq_true'] at this
      exact this.1
    · have := allNodes_sub h1 hs
      simp only [Bool.and_eq_true, List.isEmpty_iff] at this
      rw [this.2] at ha
      simp at ha

/-- The cast in `return x as T` is what blocks `Ex.castItem`. -/
example : ∃ p n up, Ex.castItem.tree.sub p = some n ∧ Ex.castItem.chain p = some (n.data :: up) ∧
    reached env settings (n.data :: up) = true ∧ Blocked env settings n up :=
  ⟨[0], _, _, rfl, rfl, rfl, .ret _ rfl rfl rfl rfl rfl⟩

/-- A consumed `?` loses its attribute, and the file in a macro body its inner one. -/
example : ∃ s d up d' up', rootSettings envC [] = .ok s ∧ Ex.lossyConsume.chain [0] = some (d :: up) ∧
    reached envC s (d :: up) = true ∧ consumedAt envC s d up = true ∧ foreign d.attrs ≠ [] ∧
    Ex.lossyFile.chain [0, 0] = some (d' :: up') ∧ reached env settings (d' :: up') = true ∧
    d'.mode = .dropped ∧ foreign d'.attrs ≠ [] :=
  ⟨_, _, _, _, _, rfl, rfl, rfl, rfl, by decide, rfl, rfl, rfl, by decide⟩

end

end Hooq
