import Verif.Model.Helpers
import Verif.Props.Hook

/-!
# Bindings at run time (C49)
-/

namespace Hooq

/-- The table of a hash map: what its keys are bound to. -/
def BoundTo {α : Type} (m : AMap α) (k : String) (v : α) : Prop := (k, v) ∈ m

/-- C49.  `get_binding` gives a value exactly if the key is bound to a value of the type
asked for, and then that value. -/
theorem C49_get_binding {Ty : Nat → Type} (m : HooqMeta Ty) (hn : m.bindings.keys.Nodup) (t : Nat)
    (key : String) (v : Ty t) :
    m.getBinding t key = some v ↔ ∃ expr, BoundTo m.bindings key ⟨expr, ⟨t, v⟩⟩ := by
  simp only [BoundTo, AMap.mem_iff_get? _ hn, HooqMeta.getBinding]
  cases hg : m.bindings.get? key with
  | none => simp
  | some p =>
    obtain ⟨e, ty, val⟩ := p
    simp only [Dyn.downcast, Option.some.injEq, Payload.mk.injEq]
    constructor
    · intro h
      split at h
      · rename_i hty
        subst hty
        simp only [Option.some.injEq] at h
        subst h
        exact ⟨e, rfl, rfl⟩
      · simp at h
    · rintro ⟨_, rfl, h⟩
      cases h
      simp

/-- C49.  It gives nothing if the key is not bound. -/
theorem C49_unbound {Ty : Nat → Type} (m : HooqMeta Ty) (hn : m.bindings.keys.Nodup) (t : Nat) {key : String}
    (h : ∀ p, ¬ BoundTo m.bindings key p) : m.getBinding t key = none := by
  cases hg : m.getBinding t key with
  | none => rfl
  | some v =>
    obtain ⟨e, he⟩ := (C49_get_binding m hn t key v).1 hg
    exact absurd he (h _)

/-- C49.  It gives nothing if the key is bound to a value of another type. -/
theorem C49_other_type {Ty : Nat → Type} (m : HooqMeta Ty) (hn : m.bindings.keys.Nodup) {t : Nat} {key : String}
    {p : Payload Ty} (h : BoundTo m.bindings key p) (ht : p.value.ty ≠ t) : m.getBinding t key = none := by
  cases hg : m.getBinding t key with
  | none => rfl
  | some v =>
    obtain ⟨e, he⟩ := (C49_get_binding m hn t key v).1 hg
    have h1 := (AMap.mem_iff_get? _ hn _ _).1 h
    rw [(AMap.mem_iff_get? _ hn _ _).1 he] at h1
    obtain rfl := Option.some.inj h1
    exact absurd rfl ht

theorem runBindings_nodup {Ty : Nat → Type} (eval : Scope Ty → Value → Dyn Ty) (str : String → Dyn Ty)
    (sc : Scope Ty) (l : List (String × Value)) :
    (runBindings eval str sc l).keys.Nodup := AMap.extend_nodup _ _ (by simp [AMap.keys])

theorem runBindings_bound {Ty : Nat → Type} (eval : Scope Ty → Value → Dyn Ty) (str : String → Dyn Ty)
    (sc : Scope Ty) {b : String → Option Value}
    {l : List (String × Value)} (hl : Listing b l) (k : String) (p : Payload Ty) :
    BoundTo (runBindings eval str sc l) k p ↔ ∃ v, b k = some v ∧ p = ⟨v.text, eval (sc.bind "expr" (str v.text)) v⟩ := by
  have hn : AMap.keys l |>.Nodup := by
    simp only [AMap.keys, List.Nodup, List.pairwise_map]
    refine hl.sorted.imp fun {x y} h e => ?_
    exact absurd (e ▸ h) (String.lt_irrefl _)
  have hn' : AMap.keys (l.map fun p => (p.1, (⟨p.2.text, eval (sc.bind "expr" (str p.2.text)) p.2⟩ : Payload Ty))) |>.Nodup := by
    simpa [AMap.keys, Function.comp_def] using hn
  simp only [BoundTo]
  rw [AMap.mem_iff_get? _ (runBindings_nodup eval str sc l), runBindings, AMap.get?_extend, AMap.lastVal_nodup _ hn']
  simp only [AMap.get?, Option.or_none]
  rw [← AMap.mem_iff_get? _ hn']
  simp only [List.mem_map, Prod.mk.injEq, Prod.exists]
  constructor
  · rintro ⟨a, v, h1, rfl, rfl⟩
    exact ⟨v, (hl.exact _ _).1 h1, rfl⟩
  · rintro ⟨v, h1, rfl⟩
    exact ⟨k, v, (hl.exact _ _).2 h1, rfl, rfl⟩

/-- C49, in the whole: in every hook, on the value of `$hooq_meta`, `get_binding` gives
the value of the binding in force at the target, if there is one and it has the type
asked for, and nothing otherwise.  The value is that in the scope of the hook with a
variable `expr` in front (`C81_value`, `C81_captured`). -/
theorem C49_hook {env : Env} {args : List Meta} {s : Settings} {i i' : Item}
    {uses : List Path} (hs : rootSettings env args = .ok s) (hb : s.bindings.keys.Nodup)
    (h : hooqImpls env args i = .ok (uses, i')) {p : List Nat} {d : Data} {up : List Data}
    (hu : i.chain p = some (d :: up)) (hr : reached env s (d :: up) = true)
    {Ty : Nat → Type} (eval : Scope Ty → Value → Dyn Ty) (str : String → Dyn Ty)
    (sc : Scope Ty) :
    ∃ n', i'.tree.sub p = some n' ∧ ∀ m ∈ n'.marks, ∃ σ sp out,
      let tup := targetUp m.1.kind (d :: up)
      let me := methodAt env s tup
      let inForce := fun k => (nearest (bindingOf env k) tup).or (s.bindings.get? k)
      Subst σ me.template out ∧ m.1.toks = me.lead ++ out.map (TT.setSpan sp) ∧
      ∀ x ∈ ["hooq_meta", "hooqmeta"], ∀ o, σ x o → ∃ r, o = [.metaHole r .callSite] ∧
        ∀ t key v, (runMeta eval str sc r).getBinding t key = some v ↔
          ∃ val, inForce key = some val ∧ eval (sc.bind "expr" (str val.text)) val = ⟨t, v⟩ := by
  obtain ⟨n', h1, h2⟩ := C25_bindings hs hb h hu hr
  refine ⟨n', h1, fun m hm => ?_⟩
  obtain ⟨σ, sp, out, g1, g2, -, g4, -⟩ := h2 m hm
  refine ⟨σ, sp, out, g1, g2, fun x hx o ho => ?_⟩
  obtain ⟨r, rfl, hl⟩ := g4 x hx o ho
  refine ⟨r, rfl, fun t key v => ?_⟩
  rw [C49_get_binding _ (runBindings_nodup eval str sc r.bindings)]
  simp only [runMeta, runBindings_bound eval str sc hl]
  constructor
  · rintro ⟨e, val, e1, e2⟩
    exact ⟨val, e1, (congrArg Payload.value e2).symm⟩
  · rintro ⟨val, e1, e2⟩
    exact ⟨val.text, val, e1, by rw [e2]⟩

/-- C49.  In every hook the fields of the value of `$hooq_meta` are what `$line`, `$column`,
`$path`, `$file` and `$count` stand for there. -/
theorem C49_fields {env : Env} {args : List Meta} {s : Settings} {i i' : Item}
    {uses : List Path} (hs : rootSettings env args = .ok s) (hb : s.bindings.keys.Nodup)
    (h : hooqImpls env args i = .ok (uses, i')) {p : List Nat} {d : Data} {up : List Data}
    (hu : i.chain p = some (d :: up)) (hr : reached env s (d :: up) = true)
    {Ty : Nat → Type} (eval : Scope Ty → Value → Dyn Ty) (str : String → Dyn Ty)
    (sc : Scope Ty) :
    ∃ n', i'.tree.sub p = some n' ∧ ∀ m ∈ n'.marks, ∃ σ sp out,
      let me := methodAt env s (targetUp m.1.kind (d :: up))
      Subst σ me.template out ∧ m.1.toks = me.lead ++ out.map (TT.setSpan sp) ∧
      ∀ x ∈ ["hooq_meta", "hooqmeta"], ∀ o, σ x o → ∃ r, o = [.metaHole r .callSite] ∧
        σ "line" [.lit (.usize (runMeta eval str sc r).line) .callSite] ∧
        σ "column" [.lit (.usize (runMeta eval str sc r).column) .callSite] ∧
        σ "path" [.lit (.str (runMeta eval str sc r).path) .callSite] ∧
        σ "file" [.lit (.str (runMeta eval str sc r).file) .callSite] ∧
        σ "count" [.lit (.str (runMeta eval str sc r).count) .callSite] := by
  obtain ⟨n', h1, h2⟩ := hook_text hs hb h hu hr
  refine ⟨n', h1, fun m hm => ?_⟩
  obtain ⟨sp, c, out, _, rfl, h4, h5⟩ := h2 m hm
  refine ⟨_, sp, out, h4, h5, fun x hx o => ?_⟩
  have hn : MetaVar.Named .hooqMeta x := ⟨["hooq_meta", "hooqmeta"], by simp [metaVarNames], hx⟩
  rw [varText_named hn]
  rintro ⟨l, f, g1, g2, rfl⟩
  refine ⟨_, rfl, ?_, ?_, ?_, ?_, ?_⟩
  · exact (varText_named (v := .line) ⟨["line"], by simp [metaVarNames], by simp⟩ _).2 rfl
  · exact (varText_named (v := .column) ⟨["column", "col"], by simp [metaVarNames], by simp⟩ _).2 rfl
  · exact (varText_named (v := .path) ⟨["path"], by simp [metaVarNames], by simp⟩ _).2 rfl
  · exact (varText_named (v := .file) ⟨["file"], by simp [metaVarNames], by simp⟩ _).2 ⟨f, g2, rfl⟩
  · exact (varText_named (v := .count) ⟨["count", "nth"], by simp [metaVarNames], by simp⟩ _).2 rfl

section

/-- Two types, numbers (0) and booleans (1); two bindings. -/
def Ex.run : HooqMeta (fun t => if t = 0 then Nat else Bool) :=
  runMeta (fun _ v => if v.text = "7" then ⟨0, (7 : Nat)⟩ else ⟨1, true⟩) (fun _ => ⟨1, false⟩) (fun _ => none)
    { line := 1, col := 1, path := "", file := "", count := "",
      bindings := [("a", ⟨.other, "7"⟩), ("b", ⟨.other, "true"⟩)] }

example : Ex.run.bindings.keys.Nodup := by decide
example : Ex.run.getBinding 0 "a" = some (7 : Nat) ∧ Ex.run.getBinding 1 "a" = none ∧
    Ex.run.getBinding 0 "b" = none ∧ Ex.run.getBinding 1 "b" = some true ∧
    Ex.run.getBinding 1 "c" = none := ⟨rfl, rfl, rfl, rfl, rfl⟩

end

end Hooq
