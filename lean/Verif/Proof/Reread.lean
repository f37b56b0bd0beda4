import Verif.Spec.Reread
import Verif.Proof.Always
import Verif.Props.Laws

/-!
# Positions in the output read again
-/

namespace Hooq

theorem innermostFn_cons (d : Data) (up : List Data) :
    innermostFn (d :: up) = d.edge.fn.or (innermostFn up) := by
  simp only [innermostFn, List.findSome?_cons]
  cases d.edge.fn <;> rfl

/-- No attribute that is looked at on the way is inert. -/
def CleanUp (up : List Data) : Prop := ∀ d ∈ up, ∀ a ∈ d.seen, a.isInert = false

/-- What is kept of the way to a position: nothing inert on it, all of it visited, macros
on it only if they are walked. -/
structure Fits (B : Bool) (acc : List Data) : Prop where
  clean : CleanUp acc
  visit : ∀ d ∈ acc, d.edge.visit = true
  mac : ∀ d ∈ acc, d.tag = .mac → B = true

theorem Fits.cons {B : Bool} {acc : List Data} (h : Fits B acc) {d : Data} (h1 : ∀ a ∈ d.seen, a.isInert = false)
    (h2 : d.edge.visit = true) (h3 : d.tag = .mac → B = true) : Fits B (d :: acc) := by
  refine ⟨?_, ?_, ?_⟩
  · intro x hx
    rcases List.mem_cons.1 hx with rfl | hx
    · exact h1
    · exact h.clean x hx
  · intro x hx
    rcases List.mem_cons.1 hx with rfl | hx
    · exact h2
    · exact h.visit x hx
  · intro x hx
    rcases List.mem_cons.1 hx with rfl | hx
    · exact h3
    · exact h.mac x hx

theorem Layer.tag_ne_mac (l : Layer) : l.tag ≠ .mac := by
  obtain ⟨op, sp⟩ := l
  cases op <;> simp [Layer.tag]

/-- Going down through operators. -/
theorem wrap_chain {B : Bool} (f : Edge → List Attr → RTree) : ∀ (ls : List Layer) (ed : Edge) (attrs : List Attr)
    (acc : List Data), Fits B acc → ed.visit = true → (∀ a ∈ attrs, a.isInert = false) →
    ∃ acc' e a, Fits B acc' ∧
      (∀ p, (wrap f ls ed attrs).upFrom acc (List.replicate ls.length 0 ++ p) = (f e a).upFrom acc' p) ∧
      (∀ p, (wrap f ls ed attrs).sub (List.replicate ls.length 0 ++ p) = (f e a).sub p) ∧
      e.visit = true ∧ e.fn.or (innermostFn acc') = ed.fn.or (innermostFn acc) ∧
      (∀ x ∈ a, x ∈ attrs) ∧ (ls = [] → e = ed ∧ a = attrs) ∧ (ls ≠ [] → e = {} ∧ a = [])
  | [], ed, attrs, acc, h1, h2, h3 =>
    ⟨acc, ed, attrs, h1, fun _ => rfl, fun _ => rfl, h2, rfl, fun _ h => h, fun _ => ⟨rfl, rfl⟩, nofun⟩
  | l :: ls, ed, attrs, acc, h1, h2, h3 => by
    have hf := h1.cons (d := { edge := ed, tag := l.tag, mode := .handled, attrs := attrs, span := l.span, leftmost := true })
      (fun a ha => h3 a ha) h2 (fun h => absurd h l.tag_ne_mac)
    obtain ⟨acc', e, a, g1, g2, g3, g4, g5, g6, g7, g8⟩ := wrap_chain f ls {} [] _ hf rfl nofun
    refine ⟨acc', e, a, g1, fun p => ?_, fun p => ?_, g4, ?_, ?_, nofun, fun _ => ?_⟩
    · rw [← g2]; rfl
    · rw [← g3]; rfl
    · rw [g5, innermostFn_cons]; rfl
    · intro x hx; exact absurd (g6 x hx) (by simp)
    · by_cases hl : ls = []
      · obtain ⟨rfl, rfl⟩ := g7 hl; exact ⟨rfl, rfl⟩
      · exact g8 hl

theorem rereadList_get {ops : HookData → List Layer} {above : List Layer} : ∀ {ks : List RTree} {i : Nat} {k : RTree},
    ks[i]? = some k →
    (rereadList ops above ks)[i]? = some (reread ops k.data.edge (if i + 1 = ks.length then above else []) k)
  | k :: ks, 0, x, h => by
    simp only [List.getElem?_cons_zero, Option.some.injEq] at h
    subst h
    cases ks <;> simp [rereadList]
  | k :: ks, i + 1, x, h => by
    simp only [List.getElem?_cons_succ] at h
    have := rereadList_get (ops := ops) (above := above) h
    simp only [rereadList, List.getElem?_cons_succ, this, List.length_cons, Nat.add_right_cancel_iff]

theorem seen_handled {d : Data} (h : d.mode = .handled) : d.seen = d.attrs := by simp [Data.seen, h]

theorem under_clean {d : Data} {ed e : Edge} {a : List Attr} {ls : List Layer} (hc : ∀ a ∈ d.seen, a.isInert = false)
    (ha : ∀ x ∈ a, x ∈ if d.mode = .handled then d.attrs else [])
    (h1 : ed = d.edge ∨ ls ≠ []) (h2 : ls = [] → e = ed) (h3 : ls ≠ [] → e = {}) :
    ∀ x ∈ (d.under e a).seen, x.isInert = false := by
  intro x hx
  cases hm : d.mode with
  | handled =>
    rw [seen_handled (by simp [Data.under, hm])] at hx
    simp only [Data.under, hm, if_true] at hx
    have := ha x hx
    rw [if_pos hm] at this
    exact hc x (by rwa [seen_handled hm])
  | untouched | dropped => simp [Data.seen, Data.under, hm] at hx
  | tailOnly =>
    by_cases hl : ls = []
    · obtain rfl := h2 hl
      rcases h1 with h1 | h1
      · apply hc x
        simpa [Data.seen, Data.under, hm, h1] using hx
      · exact absurd hl h1
    · simp [Data.seen, Data.under, hm, h3 hl] at hx

/-- A consumed `?` has one operand, and a hook is on it. -/
def Consumed (y : RTree) : Prop :=
  ∀ q, y.data.tag = .question q true → ∃ k, y.kids = [k] ∧ k.data.edge = {} ∧ k.marks ≠ []

theorem follow_drop {d : Data} (h : d.follow = .drop) : ∃ q, d.tag = .question q true := by
  simp only [Data.follow] at h
  split at h <;> first | exact ⟨_, by assumption⟩ | cases h

theorem follow_sink {d : Data} (h : d.follow = .sink) : d.mode = .handled := by
  simp only [Data.follow] at h
  split at h <;> first | assumption | cases h

theorem layersOf_ne {ops : HookData → List Layer} (ho : ∀ hk, ops hk ≠ []) {ms : List (HookData × RTree)}
    (h : ms ≠ []) : layersOf ops ms ≠ [] := by
  intro h2
  simp only [layersOf, List.flatMap_eq_nil_iff, List.mem_reverse] at h2
  cases ms with
  | nil => exact h rfl
  | cons m ms => exact ho m.1 (h2 m (by simp))

/-- Following a position into the tree that is read. -/
theorem reread_at {B : Bool} {ops : HookData → List Layer} (ho : ∀ hk, ops hk ≠ []) : ∀ (p : List Nat) (t x : RTree)
    (above : List Layer) (ed : Edge) (a0 acc : List Data), t.sub p = some x →
    (∀ r y, r <+: p → t.sub r = some y → (∀ a ∈ y.data.seen, a.isInert = false) ∧ y.data.edge.visit = true ∧
      (y.data.tag = .mac → r ≠ p → B = true) ∧ Consumed y) →
    ed.visit = true → Fits B acc → ed.fn.or (innermostFn acc) = innermostFn (t.data :: a0) →
    (ed = t.data.edge ∨ t.data.edge = {} ∧ above ++ layersOf ops t.marks ≠ []) →
    ∃ e up0 acc', (reread ops ed above t).sub (relocate ops above t p) = some (reread ops e (landing ops above t p) x) ∧
      (∀ r, (reread ops ed above t).upFrom acc (relocate ops above t p ++ r) =
        (reread ops e (landing ops above t p) x).upFrom acc' r) ∧
      t.upFrom a0 p = some (x.data :: up0) ∧ Fits B acc' ∧
      e.visit = true ∧ e.fn.or (innermostFn acc') = innermostFn (x.data :: up0) ∧
      (e = x.data.edge ∨ x.data.edge = {} ∧ landing ops above t p ++ layersOf ops x.marks ≠ [])
  | [], t, x, above, ed, a0, acc, hs, hp, h1, h2, h3, h4 => by
    obtain ⟨d, ms, ks⟩ := t
    simp only [RTree.sub, Option.some.injEq] at hs
    subst hs
    refine ⟨ed, a0, acc, ?_, fun r => ?_, rfl, h2, h1, h3, h4⟩
    · simp only [relocate, landing]
      cases reread ops ed above (.mk d ms ks); rfl
    · rfl
  | i :: p, .mk d ms ks, x, above, ed, a0, acc, hs, hp, h1, h2, h3, h4 => by
    simp only [RTree.sub] at hs
    split at hs
    case h_2 => simp at hs
    rename_i k hk
    have hkid : ∀ r y, r <+: p → k.sub r = some y → (∀ a ∈ y.data.seen, a.isInert = false) ∧ y.data.edge.visit = true ∧
        (y.data.tag = .mac → r ≠ p → B = true) ∧ Consumed y := by
      intro r y hr hy
      obtain ⟨g1, g2, g3, g4⟩ := hp (i :: r) y (by simpa using hr) (by simp only [RTree.sub, hk]; exact hy)
      exact ⟨g1, g2, fun hm hn => g3 hm (by simpa using hn), g4⟩
    obtain ⟨c1, c2, c3, c4⟩ := hp [] (.mk d ms ks) (by simp) rfl
    simp only [RTree.data_mk] at c1 c2 c3 h3 h4
    have c3' := fun hm => c3 hm (by simp)
    cases hf : d.follow with
    | drop =>
      obtain ⟨q, hq⟩ := follow_drop hf
      obtain ⟨k0, hk0, hk1, hk2⟩ := c4 q hq
      simp only [RTree.kids_mk] at hk0
      subst hk0
      have hi : i = 0 ∧ k0 = k := by
        cases i with
        | zero => simpa using hk
        | succ i => simp at hk
      obtain ⟨rfl, rfl⟩ := hi
      obtain ⟨e, up0, acc', g1, g2, g3, g4⟩ := reread_at ho p k0 x (above ++ layersOf ops ms) ed (d :: a0) acc hs hkid h1 h2
        (by rw [h3, innermostFn_cons k0.data, hk1]; rfl) (.inr ⟨hk1, by simp [layersOf_ne ho hk2]⟩)
      have hL : relocate ops above (.mk d ms [k0]) (0 :: p) = relocate ops (above ++ layersOf ops ms) k0 p := by
        simp [relocate, hf]
      have hM : landing ops above (.mk d ms [k0]) (0 :: p) = landing ops (above ++ layersOf ops ms) k0 p := by
        simp [landing, hf]
      rw [hL, hM]
      have hR : reread ops ed above (.mk d ms [k0]) = reread ops ed (above ++ layersOf ops ms) k0 := by
        simp [reread, rereadHead, hf]
      rw [hR]
      exact ⟨e, up0, acc', g1, g2, by simpa [RTree.upFrom] using g3, g4⟩
    | sink =>
      have hL : relocate ops above (.mk d ms ks) (i :: p) =
          i :: relocate ops (if i + 1 = ks.length then above ++ layersOf ops ms else []) k p := by
        simp [relocate, hf, hk]
      have hM : landing ops above (.mk d ms ks) (i :: p) =
          landing ops (if i + 1 = ks.length then above ++ layersOf ops ms else []) k p := by
        simp [landing, hf, hk]
      have hR : reread ops ed above (.mk d ms ks) =
          .mk { d with edge := ed } [] (rereadList ops (above ++ layersOf ops ms) ks) := by
        simp [reread, hf]
      have hmode := follow_sink hf
      have hf2 : Fits B ({ d with edge := ed } :: acc) := h2.cons (by
        intro a ha
        rw [seen_handled (by exact hmode)] at ha
        exact c1 a (by rwa [seen_handled hmode])) h1 c3'
      obtain ⟨e, up0, acc', g1, g2, g3, g4⟩ := reread_at ho p k x (if i + 1 = ks.length then above ++ layersOf ops ms else [])
        k.data.edge (d :: a0) _ hs hkid (hkid [] k (by simp) (by cases k; rfl)).2.1 hf2
        (by rw [innermostFn_cons, innermostFn_cons k.data, ← h3]) (.inl rfl)
      rw [hL, hM, hR]
      refine ⟨e, up0, acc', ?_, fun r => ?_, ?_, g4⟩
      · simp only [RTree.sub, rereadList_get hk]; exact g1
      · simp only [List.cons_append, RTree.upFrom, rereadList_get hk]; exact g2 r
      · simp only [RTree.upFrom, hk]; exact g3
    | wrap =>
      have hL : relocate ops above (.mk d ms ks) (i :: p) =
          List.replicate (above ++ layersOf ops ms).length 0 ++ i :: relocate ops [] k p := by
        simp [relocate, hf, hk]
      have hM : landing ops above (.mk d ms ks) (i :: p) = landing ops [] k p := by
        simp [landing, hf, hk]
      have hR : reread ops ed above (.mk d ms ks) =
          wrap (fun e a => .mk (d.under e a) [] (rereadList ops [] ks))
            (above ++ layersOf ops ms) ed (if d.mode = .handled then d.attrs else []) := by
        simp [reread, hf]
      have hat : ∀ a ∈ (if d.mode = .handled then d.attrs else []), a.isInert = false := by
        intro a ha
        split at ha
        · rename_i hm; exact c1 a (by rwa [seen_handled hm])
        · simp at ha
      obtain ⟨acc1, e1, a1, w1, w2, w3, w4, w5, w6, w7, w8⟩ := wrap_chain (B := B)
        (fun e a => .mk (d.under e a) [] (rereadList ops [] ks)) (above ++ layersOf ops ms) ed _ acc h2 h1 hat
      have hf2 : Fits B (d.under e1 a1 :: acc1) := w1.cons
        (under_clean c1 w6 (h4.imp id fun h => h.2) (fun h => (w7 h).1) (fun h => (w8 h).1)) w4 c3'
      obtain ⟨e, up0, acc', g1, g2, g3, g4⟩ := reread_at ho p k x [] k.data.edge (d :: a0) _ hs hkid
        (hkid [] k (by simp) (by cases k; rfl)).2.1 hf2
        (by rw [innermostFn_cons, innermostFn_cons k.data, ← h3, ← w5]; rfl) (.inl rfl)
      have hget := rereadList_get (ops := ops) (above := []) hk
      rw [ite_self] at hget
      rw [hL, hM, hR]
      refine ⟨e, up0, acc', ?_, fun r => ?_, ?_, g4⟩
      · rw [w3]; simp only [RTree.sub, hget]; exact g1
      · rw [List.append_assoc, w2]; simp only [List.cons_append, RTree.upFrom, hget]; exact g2 r
      · simp only [RTree.upFrom, hk]; exact g3

/-! ## Settings on a way without inert attributes -/

theorem CleanUp.tail {d : Data} {up : List Data} (h : CleanUp (d :: up)) : CleanUp up :=
  fun x hx => h x (List.mem_cons_of_mem _ hx)

theorem CleanUp.over {up : List Data} (h : CleanUp up) : ∀ a ∈ attrsOver up, a.isInert = false := by
  intro a ha
  simp only [attrsOver, List.mem_flatMap, List.mem_reverse] at ha
  obtain ⟨d, h1, h2⟩ := ha
  exact h d h1 a h2

theorem inert_nothing {env : Env} {a : Attr} (h : a.isInert = false) :
    methodOf env a = none ∧ targetsOf env a = none ∧ tailIdentsOf env a = none ∧ resultTypesOf env a = none ∧
    macrosOf env a = none ∧ ignoreOf env a = .keep := by
  have hne := not_inert_ne h
  cases a with
  | path p =>
    simp [methodOf, targetsOf, tailIdentsOf, resultTypesOf, macrosOf, ignoreOf]
  | list p ts =>
    simp only [Meta.getPath] at hne
    simp [methodOf, targetsOf, tailIdentsOf, resultTypesOf, macrosOf, ignoreOf, whenNamed, hne]
  | nv p v =>
    simp only [Meta.getPath] at hne
    simp [methodOf, targetsOf, tailIdentsOf, resultTypesOf, macrosOf, ignoreOf, whenNamed, hne]

theorem inert_noskip {a : Attr} (h : a.isInert = false) : a.isSkip = false ∧ a.isSkipAll = false := by
  have hne := not_inert_ne h
  cases a with
  | path p =>
    simp only [Meta.getPath] at hne
    simp [Meta.isSkip, Meta.isSkipAll, hne]
  | list p ts => exact ⟨rfl, rfl⟩
  | nv p v => exact ⟨rfl, rfl⟩

theorem CleanUp.ignore {env : Env} {s : Settings} {up : List Data} (h : CleanUp up) :
    ignoreAt env s up = s.ignoreIdents := by
  have hn : ∀ l : List Attr, (∀ a ∈ l, a.isInert = false) → nodeIgnore env l = none := by
    intro l hl
    simp only [nodeIgnore]
    induction l with
    | nil => rfl
    | cons a l ih =>
      simp only [List.foldl_cons, (inert_nothing (hl a (by simp))).2.2.2.2.2, IgnoreEffect.apply]
      exact ih fun b hb => hl b (by simp [hb])
  rw [ignoreAt, List.findSome?_eq_none_iff.2 fun d hd => hn _ (h d hd)]
  rfl

theorem CleanUp.notSkipped {up : List Data} (h : CleanUp up) : skippedAt up = false := by
  have : ∀ l, skippedUp l up = false := by
    induction up with
    | nil => intro l; rfl
    | cons d up ih =>
      intro l
      have h1 : d.seen.any Meta.isSkipAll = false := by
        rw [List.any_eq_false]; intro a ha; simp [(inert_noskip (h d (by simp) a ha)).2]
      have h2 : d.seen.any Meta.isSkip = false := by
        rw [List.any_eq_false]; intro a ha; simp [(inert_noskip (h d (by simp) a ha)).1]
      simp [skippedUp, h1, h2, ih h.tail]
  exact this false

theorem CleanUp.hooked {env : Env} {s : Settings} {up : List Data} (h : CleanUp up) (k : Kind) :
    hookedAt env s up k = s.targets.has k := by
  rw [hookedAt, h.notSkipped, targetsAt, lastSet_eq_none fun a ha => (inert_nothing (h.over a ha)).2.1]
  rfl

theorem CleanUp.method {env : Env} {s : Settings} {up : List Data} (h : CleanUp up) :
    methodAt env s up = s.method := by
  rw [methodAt, lastSet_eq_none fun a ha => (inert_nothing (h.over a ha)).1]
  rfl

theorem CleanUp.tailIdents {env : Env} {s : Settings} {up : List Data} (h : CleanUp up) :
    tailIdentsAt env s up = s.tailIdents := by
  rw [tailIdentsAt, lastSet_eq_none fun a ha => (inert_nothing (h.over a ha)).2.2.1]
  rfl

theorem CleanUp.resultTypes {env : Env} {s : Settings} {up : List Data} (h : CleanUp up) :
    resultTypesAt env s up = s.resultTypes := by
  rw [resultTypesAt, lastSet_eq_none fun a ha => (inert_nothing (h.over a ha)).2.2.2.1]
  rfl

theorem CleanUp.macros {env : Env} {s : Settings} {up : List Data} (h : CleanUp up) :
    macrosAt env s up = s.hookInMacros := by
  rw [macrosAt, lastSet_eq_none fun a ha => (inert_nothing (h.over a ha)).2.2.2.2.1]
  rfl

theorem Fits.reached {env : Env} {s : Settings} {d : Data} {acc : List Data} (h : Fits s.hookInMacros acc)
    (hv : d.edge.visit = true) : reached env s (d :: acc) = true := by
  induction acc generalizing d with
  | nil => rw [reached_cons]; simp [hv, Hooq.reached]
  | cons m acc ih =>
    have h' : Fits s.hookInMacros acc := ⟨h.clean.tail, fun x hx => h.visit x (by simp [hx]), fun x hx => h.mac x (by simp [hx])⟩
    rw [reached_cons, ih h' (h.visit m (by simp))]
    simp only [hv, Bool.and_true, Bool.true_and, h.clean.macros]
    have := h.mac m (by simp)
    by_cases hm : m.tag = .mac
    · simp [this hm]
    · simp [hm]

end Hooq
