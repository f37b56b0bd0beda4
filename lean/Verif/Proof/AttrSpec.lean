import Verif.Spec.Attr
import Verif.Proof.Attr

/-!
# Attribute processing agrees with the per-attribute tables
-/

namespace Hooq

/-! ## Association lists -/

theorem AMap.get?_insert {α : Type} (m : AMap α) (k : String) (v : α) (k' : String) :
    (m.insert k v).get? k' = if k = k' then some v else m.get? k' := by
  induction m with
  | nil => simp [AMap.insert, AMap.get?]
  | cons x m ih =>
    obtain ⟨a, b⟩ := x
    simp only [AMap.insert]
    split
    · rename_i h; subst h
      simp only [AMap.get?]
      split <;> rfl
    · rename_i h
      simp only [AMap.get?, ih]
      split
      · rename_i h2; subst h2
        have : ¬ k = a := fun h' => h h'.symm
        simp [this]
      · rfl

theorem AMap.get?_extend {α : Type} (m : AMap α) (l : List (String × α)) (k : String) :
    (m.extend l).get? k
      = ((l.filterMap fun b => if b.1 = k then some b.2 else none).getLast?).or (m.get? k) := by
  induction l generalizing m with
  | nil => simp [AMap.extend]
  | cons x l ih =>
    obtain ⟨a, b⟩ := x
    simp only [AMap.extend, ih, AMap.get?_insert]
    by_cases h : a = k
    · subst h
      simp only [if_true, List.filterMap_cons]
      rw [List.getLast?_cons]
      cases h2 : (l.filterMap fun b => if b.1 = a then some b.2 else none).getLast? <;> simp
    · simp [h]

theorem splitInclude_fst (l : List String) :
    (splitInclude l).1 = l.filter fun s => s.toList.head? ≠ some '!' := by
  induction l with
  | nil => rfl
  | cons s l ih =>
    simp only [splitInclude]
    split
    · rename_i rest h
      simp [ih, h]
    · rename_i h
      have : ¬ s.toList.head? = some '!' := by
        intro hh
        cases hs : s.toList with
        | nil => simp [hs] at hh
        | cons c cs => simp [hs] at hh; subst hh; exact h cs hs
      simp [ih, this]

theorem splitInclude_snd (l : List String) : (splitInclude l).2 = bangs l := by
  induction l with
  | nil => rfl
  | cons s l ih =>
    simp only [splitInclude, bangs, List.filterMap_cons]
    split
    · rename_i rest h
      simp [h, ih, bangs]
    · rename_i h
      split
      · rename_i h2; simpa [bangs] using ih
      · rename_i v h2
        split at h2
        · rename_i rest h3; exact absurd h3 (h rest)
        · simp at h2

theorem hooqPath_inj (a b : String) : (hooqPath a = hooqPath b) = (a = b) := by
  simp [hooqPath, Path.ofIdents]

theorem flavorOf_eq {env : Env} {v : Value} {s : String} {f : Settings}
    (h : flavorOfValue env v s = .ok f) : flavorOf env v = some f := by
  have key : flavorOfValue env v "" = .ok f := by
    simp only [flavorOfValue] at h ⊢
    cases hv : v.view with
    | path p => simpa [getFlavorPath, hv] using h
    | litStr p => simpa [getFlavorPath, hv] using h
    | other => simp [getFlavorPath, hv, bind, Except.bind] at h
  simp [flavorOf, key, Except.toOption]

/-- Everything one attribute does, setting by setting. -/
structure StepSpec (env : Env) (acc : Inert) (a : Attr) (acc' : Inert) (keep : Bool) : Prop where
  method : acc'.method = (methodOf env a).or acc.method
  targets : acc'.targets = (targetsOf env a).or acc.targets
  tailIdents : acc'.tailIdents = (tailIdentsOf env a).or acc.tailIdents
  ignoreIdents : acc'.ignoreIdents = (ignoreOf env a).apply acc.ignoreIdents
  resultTypes : acc'.resultTypes = (resultTypesOf env a).or acc.resultTypes
  hookInMacros : acc'.hookInMacros = (macrosOf env a).or acc.hookInMacros
  bindings : ∀ k, acc'.bindings.get? k = (bindingOf env k a).or (acc.bindings.get? k)
  skip : acc'.skip = (a.isSkip || acc.skip)
  skipAll : acc'.skipAll = (a.isSkipAll || acc.skipAll)
  keep : keep = !a.isInert

theorem isInert_hooqPath_nv (n : String) (v : Value) : Meta.isInert (.nv (hooqPath n) v) = true := rfl
theorem isInert_hooqPath_list (n : String) (ts : List TT) : Meta.isInert (.list (hooqPath n) ts) = true := rfl
theorem isInert_hooqPath_path (n : String) : Meta.isInert (.path (hooqPath n)) = true := rfl

theorem except_bind_ok {ε α β : Type} {x : Except ε α} {f : α → Except ε β} {b : β}
    (h : (x >>= f) = .ok b) : ∃ a, x = .ok a ∧ f a = .ok b := by
  cases x with
  | error e => simp [bind, Except.bind] at h
  | ok a => exact ⟨a, rfl, h⟩

local macro "nv_flavor" h:ident : tactic => `(tactic| (
  obtain ⟨f, hf, h2⟩ := except_bind_ok $h:ident
  simp only [Except.ok.injEq, Prod.mk.injEq] at h2
  obtain ⟨hacc, hkeep⟩ := h2
  subst hacc; subst hkeep
  have hf := flavorOf_eq hf
  constructor <;> simp [methodOf, targetsOf, tailIdentsOf, ignoreOf, resultTypesOf, macrosOf, bindingOf,
      whenNamed, hooqPath_inj, hf, Meta.isSkip, Meta.isSkipAll, isInert_hooqPath_nv, IgnoreEffect.apply,
      AMap.get?_extend, settingNames]))

local macro "list_done" h:ident hp:ident : tactic => `(tactic| (
    simp only [Except.ok.injEq, Prod.mk.injEq] at $h:ident
    obtain ⟨hacc, hkeep⟩ := $h:ident
    subst hacc; subst hkeep
    constructor <;> simp [methodOf, targetsOf, tailIdentsOf, ignoreOf, resultTypesOf, macrosOf, bindingOf,
      whenNamed, hooqPath_inj, $hp:ident, Meta.isSkip, Meta.isSkipAll, isInert_hooqPath_list, IgnoreEffect.apply,
      AMap.get?_insert, splitInclude_fst, splitInclude_snd, appendIgnore]))

theorem getBindingName_some {p : Path} {b : String} (h : getBindingName p = .ok (some b)) :
    ∃ s t, p.segs = [s, t] ∧ s.ident = "hooq" ∧ t.ident = b := by
  simp only [getBindingName] at h
  split at h
  · simp at h
  · rename_i s rest hs
    split at h
    · simp at h
    · rename_i hq
      split at h
      · simp at h
      · rename_i t; simp at h; exact ⟨s, t, hs, by simpa using hq, h⟩
      · simp at h

theorem getBindingName_none {p : Path} (h : getBindingName p = .ok none) (a : Attr)
    (ha : a.getPath = p) : a.isInert = false := by
  simp only [Meta.isInert, ha]
  simp only [getBindingName] at h
  split at h
  · rename_i hs; simp [hs]
  · rename_i s rest hs
    split at h
    · rename_i hq; simp only [hs]; split <;> simp_all
    · split at h
      · simp [hs]
      · simp at h
      · simp at h

theorem inertStep_spec {env : Env} {acc acc' : Inert} {a : Attr} {keep : Bool}
    (h : inertStep env acc a = .ok (acc', keep)) : StepSpec env acc a acc' keep := by
  cases a with
  | path p =>
    simp only [inertStep] at h
    split at h
    · rename_i hp; subst hp
      simp only [Except.ok.injEq, Prod.mk.injEq] at h
      obtain ⟨rfl, rfl⟩ := h
      constructor <;> simp [methodOf, targetsOf, tailIdentsOf, ignoreOf, resultTypesOf, macrosOf,
        bindingOf, IgnoreEffect.apply, Meta.isSkip, Meta.isSkipAll, hooqPath_inj, isInert_hooqPath_path]
    · rename_i hn1
      split at h
      · rename_i hp; subst hp
        simp only [Except.ok.injEq, Prod.mk.injEq] at h
        obtain ⟨rfl, rfl⟩ := h
        constructor <;> simp [methodOf, targetsOf, tailIdentsOf, ignoreOf, resultTypesOf, macrosOf,
          bindingOf, IgnoreEffect.apply, Meta.isSkip, Meta.isSkipAll, hooqPath_inj, isInert_hooqPath_path]
      · rename_i hn2
        cases hb : getBindingName p with
        | error e => simp [hb, bind, Except.bind] at h
        | ok b =>
          cases b with
          | some b => simp [hb, bind, Except.bind] at h
          | none =>
            simp only [hb, bind, Except.bind, Except.ok.injEq, Prod.mk.injEq] at h
            obtain ⟨rfl, rfl⟩ := h
            have := getBindingName_none hb
            constructor <;> simp [methodOf, targetsOf, tailIdentsOf, ignoreOf, resultTypesOf, macrosOf,
              bindingOf, IgnoreEffect.apply, Meta.isSkip, Meta.isSkipAll, hn1, hn2]
            exact this _ rfl
  | list p ts =>
    simp only [inertStep] at h
    split at h
    · rename_i hp; subst hp; list_done h hooqPath_inj
    split at h
    · rename_i hp; subst hp
      split at h
      · simp at h
      · rename_i l hl
        split at h
        · rename_i sw hsw
          have : (Targets.parse l).toOption = some sw := by simp [hsw, Except.toOption]
          simp only [Except.ok.injEq, Prod.mk.injEq] at h
          obtain ⟨rfl, rfl⟩ := h
          constructor <;> simp [methodOf, targetsOf, tailIdentsOf, ignoreOf, resultTypesOf, macrosOf,
            bindingOf, whenNamed, hooqPath_inj, hl, this, Meta.isSkip, Meta.isSkipAll,
            isInert_hooqPath_list, IgnoreEffect.apply]
        · simp at h
    split at h
    · rename_i hp; subst hp
      split at h
      · simp at h
      · rename_i l hl
        simp only [Except.ok.injEq, Prod.mk.injEq] at h
        obtain ⟨rfl, rfl⟩ := h
        constructor <;> simp [methodOf, targetsOf, tailIdentsOf, ignoreOf, resultTypesOf, macrosOf,
            bindingOf, whenNamed, hooqPath_inj, hl, Meta.isSkip, Meta.isSkipAll,
            isInert_hooqPath_list, splitInclude_fst, splitInclude_snd]
        cases hi : acc.ignoreIdents <;> by_cases hb : bangs l = [] <;> simp [hb, IgnoreEffect.apply]
    split at h
    · rename_i hp; subst hp
      split at h
      · simp at h
      · rename_i l hl
        simp only [Except.ok.injEq, Prod.mk.injEq] at h
        obtain ⟨rfl, rfl⟩ := h
        constructor <;> simp [methodOf, targetsOf, tailIdentsOf, ignoreOf, resultTypesOf, macrosOf,
            bindingOf, whenNamed, hooqPath_inj, hl, Meta.isSkip, Meta.isSkipAll,
            isInert_hooqPath_list]
        cases hi : acc.ignoreIdents <;> simp [appendIgnore, IgnoreEffect.apply]
    split at h
    · rename_i hp; subst hp
      split at h
      · simp at h
      · rename_i l hl; list_done h hl
    split at h
    · rename_i hp; subst hp
      split at h
      · simp at h
      · rename_i l hl; list_done h hl
    split at h
    · rename_i hp
      split at h
      · simp at h
      · rename_i q v hl
        split at h
        · rename_i b
          have hq : ∀ k, (({ leading := false, segs := [{ ident := b, hasArgs := false }] } : Path)
              = Path.ofIdents [k]) = (b = k) := by
            intro k; simp [Path.ofIdents]
          simp only [Except.ok.injEq, Prod.mk.injEq] at h
          obtain ⟨rfl, rfl⟩ := h
          rcases hp with rfl | rfl <;>
          (constructor <;> simp [methodOf, targetsOf, tailIdentsOf, ignoreOf, resultTypesOf, macrosOf,
            bindingOf, whenNamed, hooqPath_inj, hl, Meta.isSkip, Meta.isSkipAll,
            isInert_hooqPath_list, IgnoreEffect.apply, AMap.get?_insert, hq]
           intro k; split <;> simp)
        · simp at h
    · rename_i n1 n2 n3 n4 n5 n6 n7
      cases hb : getBindingName p with
      | error e => simp [hb, bind, Except.bind] at h
      | ok b =>
        cases b with
        | some b => simp [hb, bind, Except.bind] at h
        | none =>
          simp only [hb, bind, Except.bind, Except.ok.injEq, Prod.mk.injEq] at h
          obtain ⟨rfl, rfl⟩ := h
          have := getBindingName_none hb
          constructor <;> simp [methodOf, targetsOf, tailIdentsOf, ignoreOf, resultTypesOf, macrosOf,
            bindingOf, IgnoreEffect.apply, Meta.isSkip, Meta.isSkipAll, whenNamed, n1, n2, n3, n4, n5, n6, n7]
          exact this _ rfl
  | nv p v =>
    simp only [inertStep] at h
    split at h
    · rename_i hp; subst hp; nv_flavor h
    split at h
    · rename_i hp; subst hp; nv_flavor h
    split at h
    · rename_i hp; subst hp; nv_flavor h
    split at h
    · rename_i hp; subst hp; nv_flavor h
    split at h
    · simp at h
    split at h
    · rename_i hp; subst hp; nv_flavor h
    split at h
    · rename_i hp; subst hp; nv_flavor h
    split at h
    · rename_i hp; subst hp; nv_flavor h
    · rename_i n1 n2 n3 n4 n5 n6 n7 n8
      cases hb : getBindingName p with
      | error e => simp [hb, bind, Except.bind] at h
      | ok b =>
        cases b with
        | some b =>
          simp only [hb, bind, Except.bind, Except.ok.injEq, Prod.mk.injEq] at h
          obtain ⟨rfl, rfl⟩ := h
          obtain ⟨s, t, hs, hq, rfl⟩ := getBindingName_some hb
          constructor <;> simp [methodOf, targetsOf, tailIdentsOf, ignoreOf, resultTypesOf, macrosOf,
            bindingOf, IgnoreEffect.apply, Meta.isSkip, Meta.isSkipAll, whenNamed, settingNames,
            n1, n2, n3, n4, n5, n6, n7, n8, Meta.isInert, Meta.getPath, hs, hq, AMap.get?_insert]
          intro k; split <;> simp
        | none =>
          simp only [hb, bind, Except.bind, Except.ok.injEq, Prod.mk.injEq] at h
          obtain ⟨rfl, rfl⟩ := h
          have := getBindingName_none hb
          have hk : ∀ k, bindingOf env k (.nv p v) = none := by
            intro k
            simp only [bindingOf, settingNames, List.map_cons, List.map_nil, List.mem_cons,
              n1, n2, n3, n4, n5, n6, n7, n8, List.not_mem_nil, or_self, if_false]
            split
            · rename_i s b hs
              have := this (.nv p v) rfl
              simp only [Meta.isInert, Meta.getPath, hs] at this
              simp_all
            · rfl
          constructor <;> simp [methodOf, targetsOf, tailIdentsOf, ignoreOf, resultTypesOf, macrosOf,
            hk, IgnoreEffect.apply, Meta.isSkip, Meta.isSkipAll, whenNamed, n1, n2, n3, n4, n6, n7]
          exact this _ rfl

theorem lastSet_nil {α β : Type} (f : α → Option β) : lastSet f [] = none := rfl

theorem lastSet_cons {α β : Type} (f : α → Option β) (a : α) (l : List α) :
    lastSet f (a :: l) = (lastSet f l).or (f a) := by
  simp only [lastSet, List.filterMap_cons]
  cases h : f a with
  | none => simp
  | some b => simp only [List.getLast?_cons]; cases (l.filterMap f).getLast? <;> simp

theorem lastSet_append {α β : Type} (f : α → Option β) (a b : List α) :
    lastSet f (a ++ b) = (lastSet f b).or (lastSet f a) := by
  simp only [lastSet, List.filterMap_append, List.getLast?_append]

/-- Everything the attributes of a node do, setting by setting, from an initial
accumulator. -/
structure NodeSpec (env : Env) (acc : Inert) (attrs : List Attr) (acc' : Inert) (kept : List Attr) :
    Prop where
  method : acc'.method = (lastSet (methodOf env) attrs).or acc.method
  targets : acc'.targets = (lastSet (targetsOf env) attrs).or acc.targets
  tailIdents : acc'.tailIdents = (lastSet (tailIdentsOf env) attrs).or acc.tailIdents
  ignoreIdents : acc'.ignoreIdents
    = attrs.foldl (fun cur a => (ignoreOf env a).apply cur) acc.ignoreIdents
  resultTypes : acc'.resultTypes = (lastSet (resultTypesOf env) attrs).or acc.resultTypes
  hookInMacros : acc'.hookInMacros = (lastSet (macrosOf env) attrs).or acc.hookInMacros
  bindings : ∀ k, acc'.bindings.get? k = (lastSet (bindingOf env k) attrs).or (acc.bindings.get? k)
  skip : acc'.skip = (attrs.any Meta.isSkip || acc.skip)
  skipAll : acc'.skipAll = (attrs.any Meta.isSkipAll || acc.skipAll)
  kept : kept = attrs.filter fun a => !a.isInert

theorem extractFrom_spec {env : Env} {acc acc' : Inert} {attrs kept : List Attr}
    (h : extractFrom env acc attrs = .ok (acc', kept)) : NodeSpec env acc attrs acc' kept := by
  induction attrs generalizing acc acc' kept with
  | nil =>
    simp only [extractFrom, Except.ok.injEq, Prod.mk.injEq] at h
    obtain ⟨rfl, rfl⟩ := h
    constructor <;> simp [lastSet_nil]
  | cons a rest ih =>
    simp only [extractFrom] at h
    cases hs : inertStep env acc a with
    | error e => simp [hs, bind, Except.bind] at h
    | ok r =>
      obtain ⟨acc1, keep⟩ := r
      simp only [hs, bind, Except.bind] at h
      cases hr : extractFrom env acc1 rest with
      | error e => simp [hr] at h
      | ok r =>
        obtain ⟨acc3, kept3⟩ := r
        simp only [hr, Except.ok.injEq, Prod.mk.injEq] at h
        obtain ⟨rfl, rfl⟩ := h
        have ih' := ih hr
        have s := inertStep_spec hs
        constructor
        · rw [ih'.method, s.method, lastSet_cons, Option.or_assoc]
        · rw [ih'.targets, s.targets, lastSet_cons, Option.or_assoc]
        · rw [ih'.tailIdents, s.tailIdents, lastSet_cons, Option.or_assoc]
        · rw [ih'.ignoreIdents, s.ignoreIdents]; rfl
        · rw [ih'.resultTypes, s.resultTypes, lastSet_cons, Option.or_assoc]
        · rw [ih'.hookInMacros, s.hookInMacros, lastSet_cons, Option.or_assoc]
        · intro k; rw [ih'.bindings, s.bindings, lastSet_cons, Option.or_assoc]
        · rw [ih'.skip, s.skip, List.any_cons, ← Bool.or_assoc, Bool.or_comm (rest.any _)]
        · rw [ih'.skipAll, s.skipAll, List.any_cons, ← Bool.or_assoc, Bool.or_comm (rest.any _)]
        · rw [ih'.kept, s.keep]
          cases hi : a.isInert <;> simp [hi]

theorem extract_spec {env : Env} {acc' : Inert} {attrs kept : List Attr}
    (h : extract env attrs = .ok (acc', kept)) : NodeSpec env {} attrs acc' kept :=
  extractFrom_spec h

end Hooq
