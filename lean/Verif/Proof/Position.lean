import Verif.Spec.Position
import Verif.Spec.Walk
import Verif.Spec.Agrees
import Verif.Proof.AttrSpec

/-!
# The context of the walk is the specification of the position
-/

namespace Hooq

/-! ## Maps with distinct keys -/

theorem AMap.keys_insert_mem {α : Type} (m : AMap α) (k : String) (v : α) (x : String) :
    x ∈ (m.insert k v).keys ↔ x = k ∨ x ∈ m.keys := by
  induction m with
  | nil => simp [AMap.insert, AMap.keys]
  | cons y m ih =>
    obtain ⟨a, b⟩ := y
    simp only [AMap.insert]
    split
    · rename_i h; subst h; simp [AMap.keys]
    · have ih' : x ∈ (AMap.insert m k v).keys ↔ x = k ∨ x ∈ AMap.keys m := ih
      simp only [AMap.keys, List.map_cons, List.mem_cons] at ih' ⊢
      rw [ih']
      constructor
      · rintro (h | h | h) <;> simp [h]
      · rintro (h | h | h) <;> simp [h]

theorem AMap.insert_nodup {α : Type} (m : AMap α) (k : String) (v : α) (h : m.keys.Nodup) :
    (m.insert k v).keys.Nodup := by
  induction m with
  | nil => simp [AMap.insert, AMap.keys]
  | cons y m ih =>
    obtain ⟨a, b⟩ := y
    simp only [AMap.keys, List.map_cons, List.nodup_cons] at h
    simp only [AMap.insert]
    split
    · rename_i hk; subst hk; simpa [AMap.keys] using h
    · rename_i hk
      simp only [AMap.keys, List.map_cons, List.nodup_cons]
      refine ⟨?_, ih h.2⟩
      intro hm
      have := (AMap.keys_insert_mem m k v a).1 hm
      rcases this with h' | h'
      · exact hk h'
      · exact h.1 h'

theorem AMap.extend_nodup {α : Type} (m : AMap α) (l : List (String × α)) (h : m.keys.Nodup) :
    (m.extend l).keys.Nodup := by
  induction l generalizing m with
  | nil => exact h
  | cons x l ih => obtain ⟨k, v⟩ := x; exact ih _ (AMap.insert_nodup m k v h)

theorem AMap.lastVal_nodup {α : Type} (m : AMap α) (h : m.keys.Nodup) (k : String) :
    (m.filterMap fun b => if b.1 = k then some b.2 else none).getLast? = m.get? k := by
  induction m with
  | nil => rfl
  | cons y m ih =>
    obtain ⟨a, b⟩ := y
    simp only [AMap.keys, List.map_cons, List.nodup_cons] at h
    have ih' := ih h.2
    simp only [List.filterMap_cons, AMap.get?]
    by_cases hk : a = k
    · subst hk
      have hno : (m.filterMap fun b => if b.1 = a then some b.2 else none) = [] := by
        simp only [List.filterMap_eq_nil_iff]
        intro x hx
        have : x.1 ≠ a := by
          intro he; apply h.1; rw [← he]; exact List.mem_map_of_mem hx
        simp [this]
      simp [hno]
    · simp only [hk, if_false]; exact ih'

theorem inertStep_nodup {env : Env} {acc acc' : Inert} {a : Attr} {keep : Bool}
    (h : inertStep env acc a = .ok (acc', keep)) (hn : acc.bindings.keys.Nodup) :
    acc'.bindings.keys.Nodup := by
  cases a with
  | path p =>
    simp only [inertStep] at h
    repeat' split at h
    all_goals first
      | (simp only [Except.ok.injEq, Prod.mk.injEq] at h; obtain ⟨rfl, rfl⟩ := h; exact hn)
      | (obtain ⟨b, hb, h2⟩ := except_bind_ok h
         cases b with
         | some b => simp at h2
         | none => simp only [Except.ok.injEq, Prod.mk.injEq] at h2; obtain ⟨rfl, rfl⟩ := h2; exact hn)
  | list p ts =>
    simp only [inertStep] at h
    repeat' split at h
    all_goals first
      | (simp at h; done)
      | (simp only [Except.ok.injEq, Prod.mk.injEq] at h; obtain ⟨rfl, rfl⟩ := h
         first | exact hn | exact AMap.insert_nodup _ _ _ hn)
      | (obtain ⟨b, hb, h2⟩ := except_bind_ok h
         cases b with
         | some b => simp at h2
         | none => simp only [Except.ok.injEq, Prod.mk.injEq] at h2; obtain ⟨rfl, rfl⟩ := h2; exact hn)
  | nv p v =>
    simp only [inertStep] at h
    repeat' split at h
    all_goals first
      | (simp at h; done)
      | (obtain ⟨f, hf, h2⟩ := except_bind_ok h
         simp only [Except.ok.injEq, Prod.mk.injEq] at h2; obtain ⟨rfl, rfl⟩ := h2
         first | exact hn | exact AMap.extend_nodup _ _ hn)
      | (obtain ⟨b, hb, h2⟩ := except_bind_ok h
         cases b with
         | some b => simp only [Except.ok.injEq, Prod.mk.injEq] at h2; obtain ⟨rfl, rfl⟩ := h2
                     exact AMap.insert_nodup _ _ _ hn
         | none => simp only [Except.ok.injEq, Prod.mk.injEq] at h2; obtain ⟨rfl, rfl⟩ := h2; exact hn)

theorem extractFrom_nodup {env : Env} {acc acc' : Inert} {attrs kept : List Attr}
    (h : extractFrom env acc attrs = .ok (acc', kept)) (hn : acc.bindings.keys.Nodup) :
    acc'.bindings.keys.Nodup := by
  induction attrs generalizing acc acc' kept with
  | nil => simp only [extractFrom, Except.ok.injEq, Prod.mk.injEq] at h; obtain ⟨rfl, rfl⟩ := h; exact hn
  | cons a rest ih =>
    simp only [extractFrom] at h
    obtain ⟨⟨acc1, keep⟩, h1, h2⟩ := except_bind_ok h
    obtain ⟨⟨acc3, kept3⟩, h3, h4⟩ := except_bind_ok h2
    simp only [Except.ok.injEq, Prod.mk.injEq] at h4
    obtain ⟨rfl, rfl⟩ := h4
    exact ih h3 (inertStep_nodup h1 hn)

/-! ## Agreement of context and position -/

theorem agrees_new (env : Env) (s : Settings) : Agrees env s [] (Ctx.new s) := by
  constructor <;>
  simp [Ctx.new, methodStack, targetsAt, tailIdentsAt, ignoreAt, resultTypesAt, macrosAt, bindingAt,
    attrsOver, lastSet_nil, skippedUp, skippedAt, Ctx.isSkipped, innermostFn, enclosingFn, nearestFn]

theorem seen_handles {d : Data} (h : d.handles = true) : d.seen = d.attrs := by
  simp only [Data.handles] at h
  simp only [Data.seen]
  split at h <;> simp_all
  intro h2; simp [h2] at h

theorem seen_not_handles {d : Data} (h : d.handles = false) : d.seen = [] := by
  simp only [Data.handles] at h
  simp only [Data.seen]
  split at h <;> simp_all

theorem attrsOver_cons (d : Data) (up : List Data) : attrsOver (d :: up) = attrsOver up ++ d.seen := by
  simp [attrsOver]

theorem lastSet_over {β : Type} (f : Attr → Option β) (d : Data) (up : List Data) (x : β) :
    (lastSet f (attrsOver (d :: up))).getD x
      = (lastSet f d.seen).getD ((lastSet f (attrsOver up)).getD x) := by
  rw [attrsOver_cons, lastSet_append]
  cases lastSet f d.seen <;> simp

theorem methodStack_head (env : Env) (s : Settings) (up : List Data) :
    ∃ anc, methodStack env s up = methodAt env s up :: anc := by
  induction up with
  | nil => exact ⟨[], rfl⟩
  | cons d up ih =>
    obtain ⟨anc, ih⟩ := ih
    simp only [methodStack, methodAt, lastSet_over]
    cases h : lastSet (methodOf env) d.seen with
    | none => exact ⟨anc, by simpa [methodAt] using ih⟩
    | some m => exact ⟨methodStack env s up, rfl⟩

theorem Agrees.method_val {env : Env} {s : Settings} {up : List Data} {c : Ctx}
    (h : Agrees env s up c) : c.method.val = methodAt env s up := by
  obtain ⟨anc, ha⟩ := methodStack_head env s up
  have := h.method
  rw [ha] at this
  exact (List.cons.inj this).1

/-- Facts about the function part after entering an edge. -/
theorem enter_other (ed : Edge) (c : Ctx) :
    (ed.enter c).method = c.method ∧ (ed.enter c).targets = c.targets ∧
    (ed.enter c).tailIdents = c.tailIdents ∧ (ed.enter c).ignoreIdents = c.ignoreIdents ∧
    (ed.enter c).resultTypes = c.resultTypes ∧ (ed.enter c).hookInMacros = c.hookInMacros ∧
    (ed.enter c).bindings = c.bindings ∧
    (ed.enter c).skip = (if ed.scope then c.subScope.skip else c.skip) ∧
    (ed.enter c).fnInfo = (match ed.fn with
      | some (.fn sig) => Field.fromParent (some (some (.function sig))) c.fnInfo
      | some (.closure sig) => Field.fromParent (some (some (closureInfo sig c.fnInfo))) c.fnInfo
      | none => c.fnInfo) := by
  obtain ⟨v, sc, fn, t⟩ := ed
  cases sc <;> cases fn with
  | none => simp [Edge.enter, Ctx.subScope]
  | some f => cases f <;> simp [Edge.enter, Ctx.subScope, Ctx.updateFn]

theorem fnNameAt_none {d : Data} {up : List Data} (h : d.edge.fn = none) :
    fnNameAt (d :: up) = fnNameAt up := by
  simp [fnNameAt, innermostFn, enclosingFn, h]

theorem fnInfo_step {env : Env} {s : Settings} {up : List Data} {c : Ctx} (h : Agrees env s up c)
    (d : Data) :
    (d.edge.enter c).fnInfo.val = (innermostFn (d :: up)).map (fnInfoOf (d :: up)) ∧
    nearestFn ((d.edge.enter c).fnInfo.val :: (d.edge.enter c).fnInfo.anc)
      = (enclosingFn (d :: up)).map (·.ident) := by
  have he := (enter_other d.edge c).2.2.2.2.2.2.2.2
  rw [he]
  cases hf : d.edge.fn with
  | none =>
    have e1 : innermostFn (d :: up) = innermostFn up := by simp [innermostFn, hf]
    have e2 : enclosingFn (d :: up) = enclosingFn up := by simp [enclosingFn, hf]
    have e3 : fnInfoOf (d :: up) = fnInfoOf up := by
      funext f; cases f <;> simp [fnInfoOf, fnNameAt_none hf]
    simp only [e1, e2, e3]
    exact ⟨h.fnVal, h.fnNear⟩
  | some f =>
    cases f with
    | fn sig => simp [innermostFn, enclosingFn, hf, Field.fromParent, fnInfoOf, nearestFn]
    | closure sig =>
      have e1 : innermostFn (d :: up) = some (.closure sig) := by simp [innermostFn, hf]
      have e2 : enclosingFn (d :: up) = enclosingFn up := by simp [enclosingFn, hf]
      have hn := h.fnNear
      constructor
      · simp only [e1, Field.fromParent, Option.map_some, closureInfo, fnInfoOf, fnNameAt, hn, e2]
        cases enclosingFn up <;> simp
      · rw [e2, ← hn]
        simp [Field.fromParent, closureInfo, nearestFn]

theorem handleAttrs_ok {env : Env} {attrs : List Attr} {c : Ctx} {h : Handled}
    (hh : handleAttrs env attrs c = .ok h) :
    ∃ i kept, extract env attrs = .ok (i, kept) ∧ h.ctx = c.update i ∧ h.attrs = kept ∧
      h.isSkipped = h.ctx.isSkipped := by
  have hs := handleAttrs_isSkipped hh
  simp only [handleAttrs] at hh
  obtain ⟨⟨i, kept⟩, h1, h2⟩ := except_bind_ok hh
  simp only [Except.ok.injEq] at h2
  subst h2
  exact ⟨i, kept, h1, rfl, rfl, hs⟩

theorem skip_enter {env : Env} {s : Settings} {up : List Data} {c : Ctx} (h : Agrees env s up c)
    (ed : Edge) :
    ((ed.enter c).skip = some .all ↔ skippedUp true up = true) ∧
    (ed.enter c).isSkipped = skippedUp ed.scope up := by
  have he := (enter_other ed c).2.2.2.2.2.2.2.1
  have h1 := h.skipAll
  have h2 := h.skipped
  simp only [Ctx.isSkipped, skippedAt] at h2
  simp only [Ctx.isSkipped, he]
  cases hs : ed.scope
  · simp only [Bool.false_eq_true, if_false]
    exact ⟨h1, h2⟩
  · simp only [if_true, Ctx.subScope]
    cases hk : c.skip with
    | none => simp [hk] at h1 ⊢; exact h1
    | some k => cases k <;> simp [hk] at h1 ⊢ <;> exact h1

theorem handle_kept {env : Env} {d : Data} {c : Ctx} {hd : Handled}
    (hh : d.handle env c = .ok hd) : hd.attrs = d.kept ∧ hd.isSkipped = hd.ctx.isSkipped := by
  simp only [Data.handle] at hh
  split at hh
  · rename_i hd1
    obtain ⟨i, kept, h1, h2, h3, h4⟩ := handleAttrs_ok hh
    refine ⟨?_, h4⟩
    rw [h3, (extract_spec h1).kept]
    simp only [Data.handles] at hd1
    simp only [Data.kept]
    split at hd1 <;> simp_all
    intro h; simp [h] at hd1
  · rename_i hd1
    simp only [Except.ok.injEq] at hh
    subst hh
    refine ⟨?_, rfl⟩
    simp only [Data.handles] at hd1
    simp only [Data.kept]
    split at hd1 <;> simp_all

theorem agrees_step {env : Env} {s : Settings} {up : List Data} {c : Ctx} (h : Agrees env s up c)
    {d : Data} {hd : Handled} (hh : d.handle env (d.edge.enter c) = .ok hd) :
    Agrees env s (d :: up) hd.ctx := by
  obtain ⟨e1, e2, e3, e4, e5, e6, e7, e8, e9⟩ := enter_other d.edge c
  obtain ⟨f1, f2⟩ := fnInfo_step h d
  obtain ⟨k1, k2⟩ := skip_enter h d.edge
  simp only [Data.handle] at hh
  split at hh
  · rename_i hd1
    have hseen := seen_handles hd1
    obtain ⟨i, kept, h1, h2, h3, h4⟩ := handleAttrs_ok hh
    have sp := extract_spec h1
    have hnd := extractFrom_nodup h1 (by simp [AMap.keys])
    rw [h2]
    constructor
    · have hm := sp.method
      simp only [Option.or_none] at hm
      simp only [Ctx.update, methodStack, hseen, ← hm, ← h.method, e1]
      cases i.method <;> simp [Field.fromParent]
    · have hm := sp.targets
      simp only [Option.or_none] at hm
      rw [targetsAt, lastSet_over, hseen, ← hm]
      simp [Ctx.update, e2, h.targets, targetsAt]
    · have hm := sp.tailIdents
      simp only [Option.or_none] at hm
      rw [tailIdentsAt, lastSet_over, hseen, ← hm]
      simp [Ctx.update, e3, h.tailIdents, tailIdentsAt]
    · have hm := sp.ignoreIdents
      simp only [ignoreAt, List.findSome?_cons, hseen, nodeIgnore, ← hm]
      cases hi : i.ignoreIdents <;> simp [Ctx.update, e4, h.ignoreIdents, ignoreAt, hi, nodeIgnore]
    · have hm := sp.resultTypes
      simp only [Option.or_none] at hm
      rw [resultTypesAt, lastSet_over, hseen, ← hm]
      simp [Ctx.update, e5, h.resultTypes, resultTypesAt]
    · have hm := sp.hookInMacros
      simp only [Option.or_none] at hm
      rw [macrosAt, lastSet_over, hseen, ← hm]
      simp [Ctx.update, e6, h.hookInMacros, macrosAt]
    · intro k
      have hm := sp.bindings k
      simp only [AMap.get?, Option.or_none] at hm
      rw [bindingAt, attrsOver_cons, lastSet_append, hseen, ← hm, Option.or_assoc]
      have := h.bindings k
      simp only [bindingAt] at this
      rw [← this, ← e7]
      simp only [Ctx.update]
      split
      · rename_i he
        have : i.bindings = [] := by simpa using he
        simp [this, AMap.get?]
      · rw [AMap.get?_extend, AMap.lastVal_nodup _ hnd]
    · intro hn
      simp only [Ctx.update, e7]
      split
      · exact h.nodup hn
      · exact AMap.extend_nodup _ _ (h.nodup hn)
    · have m1 := sp.skip
      have m2 := sp.skipAll
      simp only [Bool.or_false] at m1 m2
      simp only [skippedUp, hseen, ← m1, ← m2, Ctx.update, Inert.skipStatus]
      cases hsa : i.skipAll <;> cases hsk : i.skip <;> simp [k1]
    · have m1 := sp.skip
      have m2 := sp.skipAll
      simp only [Bool.or_false] at m1 m2
      simp only [skippedAt, skippedUp, hseen, ← m1, ← m2, Ctx.update, Ctx.isSkipped, Inert.skipStatus]
      simp only [Ctx.isSkipped] at k2
      cases hsa : i.skipAll <;> cases hsk : i.skip <;> simp [k2]
    · simpa [Ctx.update] using f1
    · simpa [Ctx.update] using f2
  · rename_i hd1
    have hseen := seen_not_handles (by simpa using hd1)
    simp only [Except.ok.injEq] at hh
    subst hh
    constructor
    · simp [methodStack, hseen, lastSet_nil, e1, h.method]
    · rw [targetsAt, lastSet_over, hseen, lastSet_nil]; simp [e2, h.targets, targetsAt]
    · rw [tailIdentsAt, lastSet_over, hseen, lastSet_nil]; simp [e3, h.tailIdents, tailIdentsAt]
    · simp [ignoreAt, hseen, nodeIgnore, e4, h.ignoreIdents]
    · rw [resultTypesAt, lastSet_over, hseen, lastSet_nil]; simp [e5, h.resultTypes, resultTypesAt]
    · rw [macrosAt, lastSet_over, hseen, lastSet_nil]; simp [e6, h.hookInMacros, macrosAt]
    · intro k
      rw [bindingAt, attrsOver_cons, lastSet_append, hseen, lastSet_nil]
      simp [e7, h.bindings k, bindingAt]
    · intro hn; simpa [e7] using h.nodup hn
    · simp [skippedUp, hseen, k1]
    · simp [skippedAt, skippedUp, hseen, k2]
    · exact f1
    · exact f2

end Hooq
