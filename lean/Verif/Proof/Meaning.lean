import Verif.Spec.Meaning
import Verif.Proof.Erase
import Verif.Proof.Batch

/-!
# Transparent hooks do not change the meaning
-/

set_option linter.unusedSimpArgs false

namespace Hooq

mutual
/-- `P` holds of all hooks in the tree. -/
def RTree.AllMarks (P : HookData × RTree → Prop) : RTree → Prop
  | .mk _ ms ks => (∀ m ∈ ms, P m) ∧ AllMarksL P ks
/-- `P` holds of all hooks in the trees. -/
def AllMarksL (P : HookData × RTree → Prop) : List RTree → Prop
  | [] => True
  | k :: ks => k.AllMarks P ∧ AllMarksL P ks
end

theorem allMarksL_append (P : HookData × RTree → Prop) (a b : List RTree) :
    AllMarksL P (a ++ b) ↔ AllMarksL P a ∧ AllMarksL P b := by
  induction a with
  | nil => simp [AllMarksL]
  | cons x a ih => simp [AllMarksL, ih, and_assoc]

theorem allMarks_addMark (P : HookData × RTree → Prop) (t : RTree) (m : HookData × RTree) :
    (t.addMark m).AllMarks P ↔ t.AllMarks P ∧ P m := by
  cases t with
  | mk d ms ks =>
    simp only [RTree.addMark, RTree.AllMarks, List.mem_append, List.mem_singleton]
    constructor
    · rintro ⟨h1, h2⟩; exact ⟨⟨fun x hx => h1 x (.inl hx), h2⟩, h1 m (.inr rfl)⟩
    · rintro ⟨⟨h1, h2⟩, h3⟩; exact ⟨by rintro x (hx | rfl); exacts [h1 x hx, h3], h2⟩

mutual
theorem allMarks_edge {P : HookData × RTree → Prop} {ed : Edge} (ed' : Edge) :
    ∀ e : Expr, (viewE ed e).AllMarks P → (viewE ed' e).AllMarks P
  | .mk attrs sp k, h => allMarks_edgeK ed' attrs sp k h
theorem allMarks_edgeK {P : HookData × RTree → Prop} {ed : Edge} (ed' : Edge) (attrs : List Attr) (sp : Span) :
    ∀ k : ExprKind, (viewK ed attrs sp k).AllMarks P → (viewK ed' attrs sp k).AllMarks P
  | .hooked hk arg src, h => by
    simp only [viewK] at h ⊢
    split
    · rename_i hc; rw [if_pos hc] at h; simpa only [hnode, RTree.AllMarks] using h
    · rename_i hc
      rw [if_neg hc] at h
      rw [allMarks_addMark] at h ⊢
      exact ⟨allMarks_edge ed' arg h.1, h.2⟩
  | .array _, h | .assign _ _, h | .async _, h | .await _, h | .binary _ _ _, h | .block _ _, h | .break_ _ _, h
  | .call _ _, h | .cast _ _, h | .closure _ _, h | .const_ _, h | .continue_ _, h | .field _ _, h
  | .forLoop _ _ _, h | .group _, h | .if_ _ _ _, h | .index _ _, h | .infer, h | .let_ _ _, h | .lit _, h
  | .loop _ _, h | .mac _, h | .match_ _ _, h | .methodCall _ _ _, h | .paren _, h | .path _, h
  | .range _ _ _, h | .rawAddr _, h | .reference _, h | .repeat_ _ _, h | .ret _, h | .struct_ _ _ _, h
  | .try_ _ _, h | .tryBlock _, h | .tuple _, h | .unary _ _, h | .unsafe_ _, h | .verbatim _, h
  | .while_ _ _ _, h | .yield_ _, h => by
    simpa only [viewK, hnode, onode, RTree.AllMarks] using h
end

theorem allMarks_stmt {P : HookData × RTree → Prop} {ed : Edge} {tk : Option TailKind} (ed' : Edge)
    (tk' : Option TailKind) {s : Stmt} (h : (viewStmt ed tk s).AllMarks P) : (viewStmt ed' tk' s).AllMarks P := by
  cases s with
  | expr e semi => exact allMarks_edge _ e h
  | item i => cases i <;> simpa only [viewStmt, viewItem, hnode, onode, RTree.AllMarks] using h
  | _ => simpa only [viewStmt, viewItem, hnode, onode, RTree.AllMarks] using h

theorem allMarks_stmts {P : HookData × RTree → Prop} {ed : Edge} {tk : TailKind} (ed' : Edge) (tk' : TailKind) :
    ∀ {ss : List Stmt}, AllMarksL P (viewStmts ed tk ss) → AllMarksL P (viewStmts ed' tk' ss)
  | [], _ => trivial
  | _ :: _, h => ⟨allMarks_stmt _ _ h.1, allMarks_stmts ed' tk' h.2⟩

theorem allMarks_closure {P : HookData × RTree → Prop} {ed : Edge} (ed' : Edge) {e : Expr}
    (h : (viewClosureBody ed e).AllMarks P) : (viewE ed' e).AllMarks P := by
  cases e with
  | mk attrs sp k =>
    simp only [viewClosureBody] at h
    split at h
    · rename_i hb
      cases k <;> simp only [ExprKind.isBlock, Bool.false_eq_true] at hb
      simp only [viewClosureBlock, hnode, RTree.AllMarks] at h
      simp only [viewE, viewK, hnode, RTree.AllMarks]
      exact ⟨h.1, allMarks_stmts _ _ h.2⟩
    · exact allMarks_edgeK ed' attrs sp k h

theorem allMarks_arm {P : HookData × RTree → Prop} (ed' : Edge) {e : Expr}
    (h : (viewArmBody e).AllMarks P) : (viewE ed' e).AllMarks P := by
  cases e with
  | mk attrs sp k =>
    simp only [viewArmBody] at h
    split at h <;> exact allMarks_edgeK ed' attrs sp k h

/-! ## Erasing twice -/

mutual
theorem clean2E : ∀ e : Expr, cleanE true (cleanE true e) = cleanE true e
  | .mk attrs sp k => clean2K attrs sp k
theorem clean2K (attrs : List Attr) (sp : Span) : ∀ k : ExprKind,
    cleanE true (cleanK true attrs sp k) = cleanK true attrs sp k
  | .hooked hk arg src => by
    have h := clean2E arg
    simp only [cleanK]
    split
    · split
      · simp only [cleanE, cleanK, if_true, h]
      · exact h
    · exact h
  | .array es => by simp only [cleanE, cleanK, foreign_foreign, clean2Es es]
  | .assign l r => by simp only [cleanE, cleanK, foreign_foreign, clean2E l, clean2E r]
  | .async b => by simp only [cleanE, cleanK, foreign_foreign, clean2Stmts b]
  | .await e => by simp only [cleanE, cleanK, foreign_foreign, clean2E e]
  | .binary l op r => by simp only [cleanE, cleanK, foreign_foreign, clean2E l, clean2E r]
  | .block lb b => by simp only [cleanE, cleanK, foreign_foreign, clean2Stmts b]
  | .break_ lb v => by simp only [cleanE, cleanK, foreign_foreign, clean2O v]
  | .call g args => by simp only [cleanE, cleanK, foreign_foreign, clean2E g, clean2Es args]
  | .cast e ty => by simp only [cleanE, cleanK, foreign_foreign, clean2E e]
  | .closure sig body => by simp only [cleanE, cleanK, foreign_foreign, clean2E body]
  | .const_ b => by simp only [cleanE, cleanK, foreign_foreign, clean2Stmts b]
  | .continue_ lb => by simp only [cleanE, cleanK, foreign_foreign]
  | .field e m => by simp only [cleanE, cleanK, foreign_foreign, clean2E e]
  | .forLoop hd e b => by simp only [cleanE, cleanK, foreign_foreign, clean2E e, clean2Stmts b]
  | .group e => by simp only [cleanE, cleanK, foreign_foreign, clean2E e]
  | .if_ c t e => by simp only [cleanE, cleanK, foreign_foreign, clean2E c, clean2Stmts t, clean2O e]
  | .index e j => by simp only [cleanE, cleanK, foreign_foreign, clean2E e, clean2E j]
  | .infer => by simp only [cleanE, cleanK, foreign_foreign]
  | .let_ p e => by simp only [cleanE, cleanK, foreign_foreign, clean2E e]
  | .lit l => by simp only [cleanE, cleanK, foreign_foreign]
  | .loop lb b => by simp only [cleanE, cleanK, foreign_foreign, clean2Stmts b]
  | .mac m => by simp only [cleanE, cleanK, foreign_foreign, clean2Mac m]
  | .match_ e arms => by simp only [cleanE, cleanK, foreign_foreign, clean2E e, clean2Arms arms]
  | .methodCall r n args => by simp only [cleanE, cleanK, foreign_foreign, clean2E r, clean2Es args]
  | .paren e => by simp only [cleanE, cleanK, foreign_foreign, clean2E e]
  | .path p => by simp only [cleanE, cleanK, foreign_foreign]
  | .range s op t => by simp only [cleanE, cleanK, foreign_foreign, clean2O s, clean2O t]
  | .rawAddr e => by simp only [cleanE, cleanK, foreign_foreign, clean2E e]
  | .reference e => by simp only [cleanE, cleanK, foreign_foreign, clean2E e]
  | .repeat_ e n => by simp only [cleanE, cleanK, foreign_foreign, clean2E e, clean2E n]
  | .ret v => by simp only [cleanE, cleanK, foreign_foreign, clean2O v]
  | .struct_ hd fs rest => by simp only [cleanE, cleanK, foreign_foreign, clean2Fields fs, clean2O rest]
  | .try_ e q => by simp only [cleanE, cleanK, foreign_foreign, clean2E e, if_true]
  | .tryBlock b => by simp only [cleanE, cleanK, foreign_foreign, clean2Stmts b]
  | .tuple es => by simp only [cleanE, cleanK, foreign_foreign, clean2Es es]
  | .unary op e => by simp only [cleanE, cleanK, foreign_foreign, clean2E e]
  | .unsafe_ b => by simp only [cleanE, cleanK, foreign_foreign, clean2Stmts b]
  | .verbatim ts => by simp only [cleanE, cleanK, foreign_foreign]
  | .while_ lb c b => by simp only [cleanE, cleanK, foreign_foreign, clean2E c, clean2Stmts b]
  | .yield_ v => by simp only [cleanE, cleanK, foreign_foreign, clean2O v]
theorem clean2Es : ∀ es : List Expr, cleanEs true (cleanEs true es) = cleanEs true es
  | [] => rfl
  | e :: es => by simp only [cleanEs, clean2E e, clean2Es es]
theorem clean2O : ∀ o : Option Expr, cleanO true (cleanO true o) = cleanO true o
  | none => rfl
  | some e => by simp only [cleanO, clean2E e]
theorem clean2Stmts : ∀ ss : List Stmt, cleanStmts true (cleanStmts true ss) = cleanStmts true ss
  | [] => rfl
  | s :: ss => by simp only [cleanStmts, clean2Stmt s, clean2Stmts ss]
theorem clean2Stmt : ∀ s : Stmt, cleanStmt true (cleanStmt true s) = cleanStmt true s
  | .localInit attrs pat e dv => by simp only [cleanStmt, foreign_foreign, clean2E e, clean2O dv]
  | .localDecl attrs pat => by simp only [cleanStmt, foreign_foreign]
  | .item i => by simp only [cleanStmt, clean2Item i]
  | .expr e semi => by simp only [cleanStmt, clean2E e]
  | .mac attrs m semi => by simp only [cleanStmt, foreign_foreign, clean2Mac m]
theorem clean2Arms : ∀ as : List Arm, cleanArms true (cleanArms true as) = cleanArms true as
  | [] => rfl
  | a :: as => by simp only [cleanArms, clean2Arm a, clean2Arms as]
theorem clean2Arm : ∀ a : Arm, cleanArm true (cleanArm true a) = cleanArm true a
  | .mk attrs pat g b => by simp only [cleanArm, foreign_foreign, clean2O g, clean2E b]
theorem clean2Fields : ∀ fs : List FieldVal, cleanFields true (cleanFields true fs) = cleanFields true fs
  | [] => rfl
  | f :: fs => by simp only [cleanFields, clean2Field f, clean2Fields fs]
theorem clean2Field : ∀ f : FieldVal, cleanField true (cleanField true f) = cleanField true f
  | .mk attrs m e => by simp only [cleanField, foreign_foreign, clean2E e]
theorem clean2Mac : ∀ m : Mac, cleanMac true (cleanMac true m) = cleanMac true m
  | .mk p d b => by simp only [cleanMac, clean2MacBody b]
theorem clean2MacBody : ∀ b : MacBody, cleanMacBody true (cleanMacBody true b) = cleanMacBody true b
  | .raw _ => rfl
  | .parsed evs => by simp only [cleanMacBody, clean2Evs evs]
theorem clean2Evs : ∀ vs : List Ev, cleanEvs true (cleanEvs true vs) = cleanEvs true vs
  | [] => rfl
  | v :: vs => by simp only [cleanEvs, clean2Ev v, clean2Evs vs]
theorem clean2Ev : ∀ v : Ev, cleanEv true (cleanEv true v) = cleanEv true v
  | .file _ items _ => by simp only [cleanEv, if_true, clean2Items items]
  | .item i _ => by simp only [cleanEv, clean2Item i]
  | .expr e _ => by simp only [cleanEv, clean2E e]
  | .stmt s _ => by simp only [cleanEv, clean2Stmt s]
theorem clean2Items : ∀ is : List Item, cleanItems true (cleanItems true is) = cleanItems true is
  | [] => rfl
  | i :: is => by simp only [cleanItems, clean2Item i, clean2Items is]
theorem clean2Item : ∀ i : Item, cleanItem true (cleanItem true i) = cleanItem true i
  | .fn _ _ b => by simp only [cleanItem, foreign_foreign, clean2Stmts b]
  | .impl_ _ _ is => by simp only [cleanItem, foreign_foreign, clean2ImplItems is]
  | .mod_ _ _ is => by simp only [cleanItem, foreign_foreign, clean2Items is]
  | .const_ _ _ e => by simp only [cleanItem, foreign_foreign, clean2E e]
  | .static_ _ _ e => by simp only [cleanItem, foreign_foreign, clean2E e]
  | .trait_ _ _ is => by simp only [cleanItem, foreign_foreign, clean2TraitItems is]
  | .mac _ m => by simp only [cleanItem, foreign_foreign, clean2Mac m]
  | .macroRules _ _ m => by simp only [cleanItem, foreign_foreign, clean2Mac m]
  | .other _ _ => by simp only [cleanItem, foreign_foreign]
theorem clean2ImplItems : ∀ is : List ImplItem, cleanImplItems true (cleanImplItems true is) = cleanImplItems true is
  | [] => rfl
  | i :: is => by simp only [cleanImplItems, clean2ImplItem i, clean2ImplItems is]
theorem clean2ImplItem : ∀ i : ImplItem, cleanImplItem true (cleanImplItem true i) = cleanImplItem true i
  | .fn _ _ b => by simp only [cleanImplItem, foreign_foreign, clean2Stmts b]
  | .const_ _ _ e => by simp only [cleanImplItem, foreign_foreign, clean2E e]
  | .mac _ m => by simp only [cleanImplItem, foreign_foreign, clean2Mac m]
  | .other _ _ => by simp only [cleanImplItem, foreign_foreign]
theorem clean2TraitItems : ∀ is : List TraitItem,
    cleanTraitItems true (cleanTraitItems true is) = cleanTraitItems true is
  | [] => rfl
  | i :: is => by simp only [cleanTraitItems, clean2TraitItem i, clean2TraitItems is]
theorem clean2TraitItem : ∀ i : TraitItem, cleanTraitItem true (cleanTraitItem true i) = cleanTraitItem true i
  | .fn _ _ b => by simp only [cleanTraitItem, foreign_foreign, clean2Stmts b]
  | .const_ _ _ e => by simp only [cleanTraitItem, foreign_foreign, clean2E e]
  | .mac _ m => by simp only [cleanTraitItem, foreign_foreign, clean2Mac m]
  | .other _ _ => by simp only [cleanTraitItem, foreign_foreign]
end

/-! ## The simulation -/

theorem Congruent.seq {α : Type} {M : Meaning α} {R : α → α → Prop} (h : Congruent M R) {as bs : List α}
    (hl : List.Forall₂ R as bs) : R (M.seq as) (M.seq bs) := h _ hl

theorem Silent.id {α : Type} {R : α → α → Prop} : Silent R id := fun _ _ h => h

theorem cleanO_isSome (o : Option Expr) : (cleanO true o).isSome = o.isSome := by cases o <;> rfl

/-- What is known of every hook. -/
def GoodMark {α : Type} (M : Meaning α) (R : α → α → Prop) (m : HookData × RTree) : Prop :=
  Transparent M R m.1 ∧ (m.1.consumes → m.2.data.tag = .question m.1.span false ∧ m.2.marks = [])

theorem question_source {e : Expr} {q : Span} (h : (viewE {} e).data.tag = .question q false)
    (hm : (viewE {} e).marks = []) : ∃ at_ sp x, e = .mk at_ sp (.try_ x q) := by
  cases e with
  | mk at_ sp k =>
    cases k with
    | try_ x q' => simp only [viewE, viewK, hnode, RTree.data, Tag.question.injEq] at h; exact ⟨at_, sp, x, by rw [h.1]⟩
    | hooked hk arg src =>
      simp only [viewE, viewK] at h hm
      split at h
      · simp [hnode, RTree.data] at h
      · rename_i hc
        rw [if_neg hc] at hm
        cases hv : viewE {} arg with
        | mk d ms ks => rw [hv] at hm; simp [RTree.addMark, RTree.marks] at hm
    | _ => simp [viewE, viewK, hnode, onode, RTree.data] at h

variable {α : Type} {M : Meaning α} {R : α → α → Prop}

mutual
theorem simE (hM : Congruent M R) {ed : Edge} {f : α → α} :
    ∀ e : Expr, Silent R f → (viewE ed e).AllMarks (GoodMark M R) → R (meanE M f e) (meanE M id (cleanE true e))
  | .mk attrs sp k, hf, h => simK hM attrs sp hf k h
theorem simK (hM : Congruent M R) {ed : Edge} {f : α → α}
    (attrs : List Attr) (sp : Span) (hf : Silent R f) :
    ∀ k : ExprKind, (viewK ed attrs sp k).AllMarks (GoodMark M R) →
      R (meanK M f attrs sp k) (meanE M id (cleanK true attrs sp k))
  | .hooked hk arg src, h => by
    simp only [viewK] at h
    simp only [meanK, cleanK]
    by_cases hc : hk.kind = .question ∧ hk.exc = true
    · have hc' : hk.consumes := hc
      rw [if_pos hc] at h ⊢
      rw [if_pos (.inl hc')]
      simp only [hnode, RTree.AllMarks, AllMarksL, allMarks_addMark, and_true] at h
      obtain ⟨-, h1, h2, h3⟩ := h
      obtain ⟨g1, g2⟩ : (viewE {} src).data.tag = .question hk.span false ∧ (viewE {} src).marks = [] := h3 hc'
      obtain ⟨at_, qsp, x, rfl⟩ := question_source g1 g2
      have := h2 f hf _ _ (simE hM arg .id h1)
      rw [if_pos hc'] at this
      simp only [meanE, meanK]
      exact this qsp
    · have hc' : ¬ hk.consumes := hc
      rw [if_neg hc] at h ⊢
      rw [allMarks_addMark] at h
      obtain ⟨h1, h2, -⟩ := h
      split
      · rename_i hm
        have := h2 f hf _ _ (simE hM arg .id h1)
        rwa [if_neg hc'] at this
      · rename_i hm
        refine simE hM arg (fun a b hab => ?_) h1
        have := h2 f hf a b hab
        rw [if_neg hc'] at this
        have hi : hk.mode = .insert := by
          cases hx : hk.mode with
          | insert => rfl
          | replace => exact absurd (.inr hx) hm
        simpa only [Meaning.hook, hi] using this
  | .array es, h => by
    simp only [viewK, hnode, onode, RTree.AllMarks, AllMarksL, allMarksL_append, and_true] at h
    simp only [meanE, meanK, cleanK, foreign_foreign, id]
    exact hf _ _ (hM _ (.cons (hM.seq (simEs hM es h.2)) .nil))
  | .assign l r, h => by
    simp only [viewK, hnode, onode, RTree.AllMarks, AllMarksL, allMarksL_append, and_true] at h
    simp only [meanE, meanK, cleanK, foreign_foreign, id]
    exact hM _ (.cons (simE hM l .id h.2.1) (.cons (simE hM r hf h.2.2) .nil))
  | .async b, h => by
    simp only [viewK, hnode, onode, RTree.AllMarks, AllMarksL, allMarksL_append, and_true] at h
    simp only [meanE, meanK, cleanK, foreign_foreign, id]
    exact hf _ _ (hM _ (.cons (hM.seq (simStmts hM b h.2)) .nil))
  | .await e, h => by
    simp only [viewK, hnode, onode, RTree.AllMarks, AllMarksL, allMarksL_append, and_true] at h
    simp only [meanE, meanK, cleanK, foreign_foreign, id]
    exact hf _ _ (hM _ (.cons (simE hM e .id h.2) .nil))
  | .binary l op r, h => by
    simp only [viewK, hnode, onode, RTree.AllMarks, AllMarksL, allMarksL_append, and_true] at h
    simp only [meanE, meanK, cleanK, foreign_foreign, id]
    exact hM _ (.cons (simE hM l .id h.2.1) (.cons (simE hM r hf h.2.2) .nil))
  | .block lb b, h => by
    simp only [viewK, hnode, onode, RTree.AllMarks, AllMarksL, allMarksL_append, and_true] at h
    simp only [meanE, meanK, cleanK, foreign_foreign, id]
    exact hf _ _ (hM _ (.cons (hM.seq (simStmts hM b h.2)) .nil))
  | .break_ lb v, h => by
    simp only [viewK, hnode, onode, RTree.AllMarks, AllMarksL, allMarksL_append, and_true] at h
    simp only [meanE, meanK, cleanK, foreign_foreign, id, cleanO_isSome]
    have h1 := simO hM v hf h.2
    cases v with
    | none =>
      simp only [Option.isSome_none, Bool.false_eq_true, if_false]
      exact hf _ _ (hM _ (.cons h1 .nil))
    | some x =>
      simp only [Option.isSome_some, if_true, id]
      exact hM _ (.cons h1 .nil)
  | .call g args, h => by
    simp only [viewK, hnode, onode, RTree.AllMarks, AllMarksL, allMarksL_append, and_true] at h
    simp only [meanE, meanK, cleanK, foreign_foreign, id]
    exact hf _ _ (hM _ (.cons (simE hM g .id h.2.1) (.cons (hM.seq (simEs hM args h.2.2)) .nil)))
  | .cast e ty, h => by
    simp only [viewK, hnode, onode, RTree.AllMarks, AllMarksL, allMarksL_append, and_true] at h
    simp only [meanE, meanK, cleanK, foreign_foreign, id]
    exact hf _ _ (hM _ (.cons (simE hM e .id h.2) .nil))
  | .closure sig body, h => by
    simp only [viewK, hnode, RTree.AllMarks, AllMarksL, and_true] at h
    simp only [meanE, meanK, cleanK, foreign_foreign, id]
    by_cases hs : sig.output = .none
    · simp only [if_pos hs]; exact hM _ (.cons (simE hM body hf (allMarks_closure {} h.2)) .nil)
    · simp only [if_neg hs]; exact hf _ _ (hM _ (.cons (simE hM body .id (allMarks_closure {} h.2)) .nil))
  | .const_ b, h => by
    simp only [viewK, hnode, onode, RTree.AllMarks, AllMarksL, allMarksL_append, and_true] at h
    simp only [meanE, meanK, cleanK, foreign_foreign, id]
    exact hf _ _ (hM _ (.cons (hM.seq (simStmts hM b h.2)) .nil))
  | .continue_ lb, h => by
    simp only [viewK, hnode, onode, RTree.AllMarks, AllMarksL, allMarksL_append, and_true] at h
    simp only [meanE, meanK, cleanK, foreign_foreign, id]
    exact hf _ _ (hM _ .nil)
  | .field e m, h => by
    simp only [viewK, hnode, onode, RTree.AllMarks, AllMarksL, allMarksL_append, and_true] at h
    simp only [meanE, meanK, cleanK, foreign_foreign, id]
    exact hf _ _ (hM _ (.cons (simE hM e .id h.2) .nil))
  | .forLoop hd e b, h => by
    simp only [viewK, hnode, onode, RTree.AllMarks, AllMarksL, allMarksL_append, and_true] at h
    simp only [meanE, meanK, cleanK, foreign_foreign, id]
    exact hf _ _ (hM _ (.cons (simE hM e .id h.2.1) (.cons (hM.seq (simStmts hM b h.2.2)) .nil)))
  | .group e, h => by
    simp only [viewK, hnode, onode, RTree.AllMarks, AllMarksL, allMarksL_append, and_true] at h
    simp only [meanE, meanK, cleanK, foreign_foreign, id]
    exact hf _ _ (hM _ (.cons (simE hM e .id h.2) .nil))
  | .if_ c t e, h => by
    simp only [viewK, hnode, onode, RTree.AllMarks, AllMarksL, allMarksL_append, and_true] at h
    simp only [meanE, meanK, cleanK, foreign_foreign, id]
    exact hf _ _ (hM _ (.cons (simE hM c .id h.2.1) (.cons (hM.seq (simStmts hM t h.2.2.1)) (.cons (simO hM e .id h.2.2.2) .nil))))
  | .index e j, h => by
    simp only [viewK, hnode, onode, RTree.AllMarks, AllMarksL, allMarksL_append, and_true] at h
    simp only [meanE, meanK, cleanK, foreign_foreign, id]
    exact hf _ _ (hM _ (.cons (simE hM e .id h.2.1) (.cons (simE hM j .id h.2.2) .nil)))
  | .infer, h => by
    simp only [viewK, hnode, onode, RTree.AllMarks, AllMarksL, allMarksL_append, and_true] at h
    simp only [meanE, meanK, cleanK, foreign_foreign, id]
    exact hf _ _ (hM _ .nil)
  | .let_ p e, h => by
    simp only [viewK, hnode, onode, RTree.AllMarks, AllMarksL, allMarksL_append, and_true] at h
    simp only [meanE, meanK, cleanK, foreign_foreign, id]
    exact hM _ (.cons (simE hM e hf h.2) .nil)
  | .lit l, h => by
    simp only [viewK, hnode, onode, RTree.AllMarks, AllMarksL, allMarksL_append, and_true] at h
    simp only [meanE, meanK, cleanK, foreign_foreign, id]
    exact hf _ _ (hM _ .nil)
  | .loop lb b, h => by
    simp only [viewK, hnode, onode, RTree.AllMarks, AllMarksL, allMarksL_append, and_true] at h
    simp only [meanE, meanK, cleanK, foreign_foreign, id]
    exact hf _ _ (hM _ (.cons (hM.seq (simStmts hM b h.2)) .nil))
  | .mac m, h => by
    simp only [viewK, hnode, onode, RTree.AllMarks, AllMarksL, allMarksL_append, and_true] at h
    simp only [meanE, meanK, cleanK, foreign_foreign, id]
    exact hf _ _ (hM _ (.cons (simMac hM m h.2) .nil))
  | .match_ e arms, h => by
    simp only [viewK, hnode, onode, RTree.AllMarks, AllMarksL, allMarksL_append, and_true] at h
    simp only [meanE, meanK, cleanK, foreign_foreign, id]
    exact hf _ _ (hM _ (.cons (simE hM e .id h.2.1) (.cons (hM.seq (simArms hM arms h.2.2)) .nil)))
  | .methodCall r n args, h => by
    simp only [viewK, hnode, onode, RTree.AllMarks, AllMarksL, allMarksL_append, and_true] at h
    simp only [meanE, meanK, cleanK, foreign_foreign, id]
    exact hf _ _ (hM _ (.cons (simE hM r .id h.2.1) (.cons (hM.seq (simEs hM args h.2.2)) .nil)))
  | .paren e, h => by
    simp only [viewK, hnode, onode, RTree.AllMarks, AllMarksL, allMarksL_append, and_true] at h
    simp only [meanE, meanK, cleanK, foreign_foreign, id]
    exact hf _ _ (hM _ (.cons (simE hM e .id h.2) .nil))
  | .path p, h => by
    simp only [viewK, hnode, onode, RTree.AllMarks, AllMarksL, allMarksL_append, and_true] at h
    simp only [meanE, meanK, cleanK, foreign_foreign, id]
    exact hf _ _ (hM _ .nil)
  | .range s op t, h => by
    simp only [viewK, hnode, onode, RTree.AllMarks, AllMarksL, allMarksL_append, and_true] at h
    simp only [meanE, meanK, cleanK, foreign_foreign, id, cleanO_isSome]
    have h1 := simO hM t hf h.2.2
    cases t with
    | none =>
      simp only [Option.isSome_none, Bool.false_eq_true, if_false]
      exact hf _ _ (hM _ (.cons (simO hM s .id h.2.1) (.cons h1 .nil)))
    | some x =>
      simp only [Option.isSome_some, if_true, id]
      exact hM _ (.cons (simO hM s .id h.2.1) (.cons h1 .nil))
  | .rawAddr e, h => by
    simp only [viewK, hnode, onode, RTree.AllMarks, AllMarksL, allMarksL_append, and_true] at h
    simp only [meanE, meanK, cleanK, foreign_foreign, id]
    exact hM _ (.cons (simE hM e hf h.2) .nil)
  | .reference e, h => by
    simp only [viewK, hnode, onode, RTree.AllMarks, AllMarksL, allMarksL_append, and_true] at h
    simp only [meanE, meanK, cleanK, foreign_foreign, id]
    exact hM _ (.cons (simE hM e hf h.2) .nil)
  | .repeat_ e n, h => by
    simp only [viewK, hnode, onode, RTree.AllMarks, AllMarksL, allMarksL_append, and_true] at h
    simp only [meanE, meanK, cleanK, foreign_foreign, id]
    exact hf _ _ (hM _ (.cons (simE hM e .id h.2.1) (.cons (simE hM n .id h.2.2) .nil)))
  | .ret v, h => by
    simp only [viewK, hnode, onode, RTree.AllMarks, AllMarksL, allMarksL_append, and_true] at h
    simp only [meanE, meanK, cleanK, foreign_foreign, id, cleanO_isSome]
    have h1 := simO hM v hf h.2
    cases v with
    | none =>
      simp only [Option.isSome_none, Bool.false_eq_true, if_false]
      exact hf _ _ (hM _ (.cons h1 .nil))
    | some x =>
      simp only [Option.isSome_some, if_true, id]
      exact hM _ (.cons h1 .nil)
  | .struct_ hd fs rest, h => by
    simp only [viewK, hnode, onode, RTree.AllMarks, AllMarksL, allMarksL_append, and_true] at h
    simp only [meanE, meanK, cleanK, foreign_foreign, id]
    exact hf _ _ (hM _ (.cons (hM.seq (simFields hM fs h.2.1)) (.cons (simO hM rest .id h.2.2) .nil)))
  | .try_ e q, h => by
    simp only [viewK, hnode, onode, RTree.AllMarks, AllMarksL, allMarksL_append, and_true] at h
    simp only [meanE, meanK, cleanK, foreign_foreign, id]
    exact hf _ _ (hM _ (.cons (simE hM e .id h.2) .nil))
  | .tryBlock b, h => by
    simp only [viewK, hnode, onode, RTree.AllMarks, AllMarksL, allMarksL_append, and_true] at h
    simp only [meanE, meanK, cleanK, foreign_foreign, id]
    exact hf _ _ (hM _ (.cons (hM.seq (simStmts hM b h.2)) .nil))
  | .tuple es, h => by
    simp only [viewK, hnode, onode, RTree.AllMarks, AllMarksL, allMarksL_append, and_true] at h
    simp only [meanE, meanK, cleanK, foreign_foreign, id]
    exact hf _ _ (hM _ (.cons (hM.seq (simEs hM es h.2)) .nil))
  | .unary op e, h => by
    simp only [viewK, hnode, onode, RTree.AllMarks, AllMarksL, allMarksL_append, and_true] at h
    simp only [meanE, meanK, cleanK, foreign_foreign, id]
    exact hM _ (.cons (simE hM e hf h.2) .nil)
  | .unsafe_ b, h => by
    simp only [viewK, hnode, onode, RTree.AllMarks, AllMarksL, allMarksL_append, and_true] at h
    simp only [meanE, meanK, cleanK, foreign_foreign, id]
    exact hf _ _ (hM _ (.cons (hM.seq (simStmts hM b h.2)) .nil))
  | .verbatim ts, h => by
    simp only [viewK, hnode, onode, RTree.AllMarks, AllMarksL, allMarksL_append, and_true] at h
    simp only [meanE, meanK, cleanK, foreign_foreign, id]
    exact hf _ _ (hM _ .nil)
  | .while_ lb c b, h => by
    simp only [viewK, hnode, onode, RTree.AllMarks, AllMarksL, allMarksL_append, and_true] at h
    simp only [meanE, meanK, cleanK, foreign_foreign, id]
    exact hf _ _ (hM _ (.cons (simE hM c .id h.2.1) (.cons (hM.seq (simStmts hM b h.2.2)) .nil)))
  | .yield_ v, h => by
    simp only [viewK, hnode, onode, RTree.AllMarks, AllMarksL, allMarksL_append, and_true] at h
    simp only [meanE, meanK, cleanK, foreign_foreign, id, cleanO_isSome]
    have h1 := simO hM v hf h.2
    cases v with
    | none =>
      simp only [Option.isSome_none, Bool.false_eq_true, if_false]
      exact hf _ _ (hM _ (.cons h1 .nil))
    | some x =>
      simp only [Option.isSome_some, if_true, id]
      exact hM _ (.cons h1 .nil)
theorem simEs (hM : Congruent M R) : ∀ es : List Expr, AllMarksL (GoodMark M R) (viewEs es) →
    List.Forall₂ R (meanEs M es) (meanEs M (cleanEs true es))
  | [], _ => .nil
  | e :: es, h => .cons (simE hM e .id h.1) (simEs hM es h.2)
theorem simO (hM : Congruent M R) {ed : Edge} {f : α → α} : ∀ o : Option Expr, Silent R f →
    AllMarksL (GoodMark M R) (viewO ed o) → R (meanO M f o) (meanO M id (cleanO true o))
  | none, _, _ => hM _ .nil
  | some e, hf, h => simE hM e hf h.1
theorem simStmts (hM : Congruent M R) {ed : Edge} {tk : TailKind} : ∀ ss : List Stmt,
    AllMarksL (GoodMark M R) (viewStmts ed tk ss) → List.Forall₂ R (meanStmts M ss) (meanStmts M (cleanStmts true ss))
  | [], _ => .nil
  | s :: ss, h => .cons (simStmt hM s h.1) (simStmts hM ss h.2)
theorem simStmt (hM : Congruent M R) {ed : Edge} {tk : Option TailKind} : ∀ s : Stmt,
    (viewStmt ed tk s).AllMarks (GoodMark M R) → R (meanStmt M s) (meanStmt M (cleanStmt true s))
  | .localInit attrs pat e dv, h => by
    simp only [viewStmt, hnode, RTree.AllMarks, AllMarksL] at h
    simp only [meanStmt, cleanStmt, foreign_foreign]
    exact hM _ (.cons (simE hM e .id h.2.1) (.cons (simO hM dv .id h.2.2) .nil))
  | .localDecl attrs pat, _ => by
    simp only [meanStmt, cleanStmt, foreign_foreign]
    exact hM _ .nil
  | .item i, h => simItem hM i h
  | .expr e semi, h => by
    simp only [viewStmt] at h
    simp only [meanStmt, cleanStmt]
    exact hM _ (.cons (simE hM e .id h) .nil)
  | .mac attrs m semi, h => by
    simp only [viewStmt, hnode, RTree.AllMarks] at h
    simp only [meanStmt, cleanStmt, foreign_foreign]
    exact hM _ (.cons (simMac hM m h.2) .nil)
theorem simArms (hM : Congruent M R) : ∀ as : List Arm, AllMarksL (GoodMark M R) (viewArms as) →
    List.Forall₂ R (meanArms M as) (meanArms M (cleanArms true as))
  | [], _ => .nil
  | a :: as, h => .cons (simArm hM a h.1) (simArms hM as h.2)
theorem simArm (hM : Congruent M R) : ∀ a : Arm, (viewArm a).AllMarks (GoodMark M R) →
    R (meanArm M a) (meanArm M (cleanArm true a))
  | .mk attrs pat g b, h => by
    simp only [viewArm, onode, RTree.AllMarks, allMarksL_append, AllMarksL, and_true] at h
    simp only [meanArm, cleanArm, foreign_foreign]
    exact hM _ (.cons (simO hM g .id h.2.1) (.cons (simE hM b .id (allMarks_arm {} h.2.2)) .nil))
theorem simFields (hM : Congruent M R) : ∀ fs : List FieldVal, AllMarksL (GoodMark M R) (viewFields fs) →
    List.Forall₂ R (meanFields M fs) (meanFields M (cleanFields true fs))
  | [], _ => .nil
  | f :: fs, h => .cons (simField hM f h.1) (simFields hM fs h.2)
theorem simField (hM : Congruent M R) : ∀ f : FieldVal, (viewField f).AllMarks (GoodMark M R) →
    R (meanField M f) (meanField M (cleanField true f))
  | .mk attrs m e, h => by
    simp only [viewField, hnode, RTree.AllMarks, AllMarksL, and_true] at h
    simp only [meanField, cleanField, foreign_foreign]
    exact hM _ (.cons (simE hM e .id h.2) .nil)
theorem simMac (hM : Congruent M R) : ∀ m : Mac, AllMarksL (GoodMark M R) (viewMac m) →
    R (meanMac M m) (meanMac M (cleanMac true m))
  | .mk p d b, h => simMacBody hM p d b h
theorem simMacBody (hM : Congruent M R) (p : Path) (d : Delim) : ∀ b : MacBody,
    AllMarksL (GoodMark M R) (viewMacBody b) → R (meanMacBody M p d b) (meanMacBody M p d (cleanMacBody true b))
  | .raw _, _ => hM _ .nil
  | .parsed evs, h => hM _ (.cons (hM.seq (simEvs hM evs h)) .nil)
theorem simEvs (hM : Congruent M R) : ∀ vs : List Ev, AllMarksL (GoodMark M R) (viewEvs vs) →
    List.Forall₂ R (meanEvs M vs) (meanEvs M (cleanEvs true vs))
  | [], _ => .nil
  | v :: vs, h => .cons (simEv hM v h.1) (simEvs hM vs h.2)
theorem simEv (hM : Congruent M R) : ∀ v : Ev, (viewEv v).AllMarks (GoodMark M R) →
    R (meanEv M v) (meanEv M (cleanEv true v))
  | .file attrs items sep, h => by
    simp only [viewEv, onode, RTree.AllMarks] at h
    exact hM _ (.cons (hM.seq (simItems hM items h.2)) .nil)
  | .item i sep, h => hM _ (.cons (simItem hM i h) .nil)
  | .expr e sep, h => hM _ (.cons (simE hM e .id h) .nil)
  | .stmt s sep, h => hM _ (.cons (simStmt hM s h) .nil)
theorem simItems (hM : Congruent M R) : ∀ is : List Item, AllMarksL (GoodMark M R) (viewItems is) →
    List.Forall₂ R (meanItems M is) (meanItems M (cleanItems true is))
  | [], _ => .nil
  | i :: is, h => .cons (simItem hM i h.1) (simItems hM is h.2)
theorem simItem (hM : Congruent M R) {ed : Edge} : ∀ i : Item, (viewItem ed i).AllMarks (GoodMark M R) →
    R (meanItem M i) (meanItem M (cleanItem true i))
  | .fn attrs sig b, h => by
    simp only [viewItem, hnode, onode, RTree.AllMarks, AllMarksL, and_true] at h
    simp only [meanItem, cleanItem, foreign_foreign]
    exact hM _ (.cons (hM.seq (simStmts hM b h.2)) .nil)
  | .impl_ attrs hd is, h => by
    simp only [viewItem, hnode, onode, RTree.AllMarks, AllMarksL, and_true] at h
    simp only [meanItem, cleanItem, foreign_foreign]
    exact hM _ (.cons (hM.seq (simImplItems hM is h.2)) .nil)
  | .mod_ attrs name is, h => by
    simp only [viewItem, hnode, onode, RTree.AllMarks, AllMarksL, and_true] at h
    simp only [meanItem, cleanItem, foreign_foreign]
    exact hM _ (.cons (hM.seq (simItems hM is h.2)) .nil)
  | .const_ attrs hd e, h => by
    simp only [viewItem, hnode, onode, RTree.AllMarks, AllMarksL, and_true] at h
    simp only [meanItem, cleanItem, foreign_foreign]
    exact hM _ (.cons (simE hM e .id h.2) .nil)
  | .static_ attrs hd e, h => by
    simp only [viewItem, hnode, onode, RTree.AllMarks, AllMarksL, and_true] at h
    simp only [meanItem, cleanItem, foreign_foreign]
    exact hM _ (.cons (simE hM e .id h.2) .nil)
  | .trait_ attrs hd is, h => by
    simp only [viewItem, hnode, onode, RTree.AllMarks, AllMarksL, and_true] at h
    simp only [meanItem, cleanItem, foreign_foreign]
    exact hM _ (.cons (hM.seq (simTraitItems hM is h.2)) .nil)
  | .mac attrs m, h => by
    simp only [viewItem, hnode, onode, RTree.AllMarks, AllMarksL, and_true] at h
    simp only [meanItem, cleanItem, foreign_foreign]
    exact hM _ (.cons (simMac hM m h.2) .nil)
  | .macroRules attrs name m, h => by
    simp only [viewItem, hnode, onode, RTree.AllMarks, AllMarksL, and_true] at h
    simp only [meanItem, cleanItem, foreign_foreign, clean2Mac]
    exact hM _ .nil
  | .other attrs text, h => by
    simp only [viewItem, hnode, onode, RTree.AllMarks, AllMarksL, and_true] at h
    simp only [meanItem, cleanItem, foreign_foreign]
    exact hM _ .nil
theorem simImplItems (hM : Congruent M R) : ∀ is : List ImplItem, AllMarksL (GoodMark M R) (viewImplItems is) →
    List.Forall₂ R (meanImplItems M is) (meanImplItems M (cleanImplItems true is))
  | [], _ => .nil
  | i :: is, h => .cons (simImplItem hM i h.1) (simImplItems hM is h.2)
theorem simImplItem (hM : Congruent M R) : ∀ i : ImplItem, (viewImplItem i).AllMarks (GoodMark M R) →
    R (meanImplItem M i) (meanImplItem M (cleanImplItem true i))
  | .fn attrs sig b, h => by
    simp only [viewImplItem, hnode, onode, RTree.AllMarks, AllMarksL, and_true] at h
    simp only [meanImplItem, cleanImplItem, foreign_foreign]
    exact hM _ (.cons (hM.seq (simStmts hM b h.2)) .nil)
  | .const_ attrs hd e, h => by
    simp only [viewImplItem, hnode, onode, RTree.AllMarks, AllMarksL, and_true] at h
    simp only [meanImplItem, cleanImplItem, foreign_foreign]
    exact hM _ (.cons (simE hM e .id h.2) .nil)
  | .mac attrs m, h => by
    simp only [viewImplItem, hnode, onode, RTree.AllMarks, AllMarksL, and_true] at h
    simp only [meanImplItem, cleanImplItem, foreign_foreign]
    exact hM _ (.cons (simMac hM m h.2) .nil)
  | .other attrs text, h => by
    simp only [viewImplItem, hnode, onode, RTree.AllMarks, AllMarksL, and_true] at h
    simp only [meanImplItem, cleanImplItem, foreign_foreign]
    exact hM _ .nil
theorem simTraitItems (hM : Congruent M R) : ∀ is : List TraitItem, AllMarksL (GoodMark M R) (viewTraitItems is) →
    List.Forall₂ R (meanTraitItems M is) (meanTraitItems M (cleanTraitItems true is))
  | [], _ => .nil
  | i :: is, h => .cons (simTraitItem hM i h.1) (simTraitItems hM is h.2)
theorem simTraitItem (hM : Congruent M R) : ∀ i : TraitItem, (viewTraitItem i).AllMarks (GoodMark M R) →
    R (meanTraitItem M i) (meanTraitItem M (cleanTraitItem true i))
  | .fn attrs sig b, h => by
    simp only [viewTraitItem, hnode, onode, RTree.AllMarks, AllMarksL, and_true] at h
    simp only [meanTraitItem, cleanTraitItem, foreign_foreign]
    exact hM _ (.cons (hM.seq (simStmts hM b h.2)) .nil)
  | .const_ attrs hd e, h => by
    simp only [viewTraitItem, hnode, onode, RTree.AllMarks, AllMarksL, and_true] at h
    simp only [meanTraitItem, cleanTraitItem, foreign_foreign]
    exact hM _ (.cons (simE hM e .id h.2) .nil)
  | .mac attrs m, h => by
    simp only [viewTraitItem, hnode, onode, RTree.AllMarks, AllMarksL, and_true] at h
    simp only [meanTraitItem, cleanTraitItem, foreign_foreign]
    exact hM _ (.cons (simMac hM m h.2) .nil)
  | .other attrs text, h => by
    simp only [viewTraitItem, hnode, onode, RTree.AllMarks, AllMarksL, and_true] at h
    simp only [meanTraitItem, cleanTraitItem, foreign_foreign]
    exact hM _ .nil
end

/-! ## The hooks in the output of the walk -/

theorem allMarks_and {P Q : HookData × RTree → Prop} {t : RTree} (hp : t.AllMarks P) (hq : t.AllMarks Q) :
    t.AllMarks fun m => P m ∧ Q m := by
  have key : ∀ n, ∀ t : RTree, sizeOf t < n → t.AllMarks P → t.AllMarks Q → t.AllMarks fun m => P m ∧ Q m := by
    intro n
    induction n with
    | zero => intro t ht; omega
    | succ n ih =>
      rintro ⟨d, ms, ks⟩ hs ⟨h1, h2⟩ ⟨h3, h4⟩
      refine ⟨fun m hm => ⟨h1 m hm, h3 m hm⟩, ?_⟩
      have hsz : ∀ k ∈ ks, sizeOf k < n := by
        intro k hk
        have := List.sizeOf_lt_of_mem hk
        simp only [RTree.mk.sizeOf_spec] at hs
        omega
      clear hs h1 h3
      induction ks with
      | nil => trivial
      | cons k ks ihk =>
        exact ⟨ih k (hsz k (by simp)) h2.1 h4.1, ihk h2.2 h4.2 fun k hk => hsz k (by simp [hk])⟩
  exact key _ t (Nat.lt_succ_self _) hp hq

/-- A property of all hooks found at positions holds of all hooks. -/
theorem allMarks_of_sub {P : HookData × RTree → Prop} {t : RTree}
    (h : ∀ p n, t.sub p = some n → ∀ m ∈ n.marks, P m) : t.AllMarks P := by
  have key : ∀ n, ∀ t : RTree, sizeOf t < n → (∀ p n, t.sub p = some n → ∀ m ∈ n.marks, P m) → t.AllMarks P := by
    intro n
    induction n with
    | zero => intro t ht; omega
    | succ n ih =>
      rintro ⟨d, ms, ks⟩ hs h
      refine ⟨fun m hm => h [] _ rfl m hm, ?_⟩
      have hk : ∀ k ∈ ks, k.AllMarks P := by
        intro k hk
        have := List.sizeOf_lt_of_mem hk
        simp only [RTree.mk.sizeOf_spec] at hs
        obtain ⟨j, hj⟩ := List.getElem?_of_mem hk
        exact ih k (by omega) fun p n hp => h (j :: p) n (by simp only [RTree.sub, hj, hp])
      clear hs h
      induction ks with
      | nil => trivial
      | cons k ks ihk => exact ⟨hk k (by simp), ihk fun k hk' => hk k (by simp [hk'])⟩
  exact key _ t (Nat.lt_succ_self _) h

theorem allMarks_plain {P : HookData × RTree → Prop} : ∀ {t : RTree}, t.plain → t.AllMarks P := by
  have key : ∀ n, ∀ t : RTree, sizeOf t < n → t.plain → t.AllMarks P := by
    intro n
    induction n with
    | zero => intro t ht; omega
    | succ n ih =>
      rintro ⟨d, ms, ks⟩ hs hp
      simp only [RTree.plain] at hp
      refine ⟨by simp [hp.1], ?_⟩
      have hsz : ∀ k ∈ ks, sizeOf k < n := by
        intro k hk
        have := List.sizeOf_lt_of_mem hk
        simp only [RTree.mk.sizeOf_spec] at hs
        omega
      have h2 := hp.2
      clear hs hp
      induction ks with
      | nil => trivial
      | cons k ks ihk => exact ⟨ih k (hsz k (by simp)) h2.1, ihk (fun k hk => hsz k (by simp [hk])) h2.2⟩
  exact fun {t} => key _ t (Nat.lt_succ_self _)

/-- Where the hook took the `?` away, its source is the `?`. -/
def FromQuestion (m : HookData × RTree) : Prop :=
  m.1.consumes → m.2.data.tag = .question m.1.span false ∧ m.2.marks = []

theorem allMarks_markHead {P : HookData × RTree → Prop} {m : HookData × RTree} {ks : List RTree}
    (h : AllMarksL P ks) (hm : P m) : AllMarksL P (markHead m ks) := by
  cases ks with
  | nil => trivial
  | cons k ks => exact ⟨(allMarks_addMark P k m).2 ⟨h.1, hm⟩, h.2⟩

mutual
theorem gwalk_sources {env : Env} : ∀ (t : RTree) {t' : RTree} {ctx : Ctx} {c c' : Counter}, t.plain →
    gwalk env ctx t c = .ok (t', c') → t'.AllMarks FromQuestion
  | .mk d ms kids, t', ctx, c, c', hp, hw => by
    cases hv : d.edge.visit with
    | false =>
      simp only [gwalk, hv, Bool.false_eq_true, if_false] at hw
      rw [← (W.pure_ok hw).1]
      exact allMarks_plain hp
    | true =>
      obtain ⟨hb, hd, kids', ck, t, ct, h1, h2, h3, h4⟩ := gwalk_inv hv hw
      have hk : AllMarksL FromQuestion kids' := by
        simp only [gopen] at h2
        simp only [RTree.plain] at hp
        split at h2
        · exact gwalkList_sources kids hp.2 h2
        · rw [← (W.pure_ok h2).1]
          have := @allMarks_plain FromQuestion (.mk d [] kids) (by simp only [RTree.plain]; exact ⟨trivial, hp.2⟩)
          exact this.2
      have hq : ∀ q b, d.tag = .question q b → b = false := by
        intro q b hq
        simp only [RTree.built, hq] at hb
        cases b <;> simp_all
      have ht := gtarget_inv h3
      have htk : AllMarksL FromQuestion t.kids := by
        by_cases hquest : ∃ q b, d.tag = .question q b
        · obtain ⟨q, b, htag⟩ := hquest
          obtain rfl := hq q b htag
          have := ht.question q false htag
          split at this
          · obtain ⟨hk', -, hr, hkids, -⟩ := this
            rw [hkids]
            refine allMarks_markHead hk fun _ => ?_
            simp only [sourceTree, RTree.data, RTree.marks, htag, (render_kind hr).2.1, and_self]
          · rw [this.2.1]; exact hk
        · by_cases hret : d.tag = .ret
          · have := (ht.ret hret).2.2
            cases kids' with
            | nil => rw [this.1]; trivial
            | cons k ks =>
              simp only at this
              split at this
              · split at this
                · obtain ⟨hk', -, hr, hkids⟩ := this
                  rw [hkids]
                  refine allMarks_markHead hk fun hc => ?_
                  have := hc.1
                  rw [(render_kind hr).1] at this
                  simp at this
                · rw [this.2]; exact hk
              · rw [this.1]; exact hk
          · rw [(ht.other (fun q b h => hquest ⟨q, b, h⟩) hret).2.2.1]; exact hk
      obtain ⟨e1, e2, e3⟩ := gtail_inv h4
      have hkids : AllMarksL FromQuestion t'.kids := by rw [e2]; exact htk
      have hmarks : ∀ m ∈ t'.marks, FromQuestion m := by
        cases htl : d.edge.tail with
        | none => simp only [htl] at e3; rw [e3.1, ht.marks]; simp
        | some tk =>
          simp only [htl] at e3
          split at e3
          · split at e3
            · obtain ⟨hk', -, hr, hm⟩ := e3
              rw [hm, ht.marks]
              intro m hm' hc
              simp only [List.nil_append, List.mem_singleton] at hm'
              rw [hm'] at hc
              have := hc.1
              rw [(render_kind hr).1] at this
              simp at this
            · rw [e3.2, ht.marks]; simp
          · rw [e3.1, ht.marks]; simp
      cases t' with
      | mk d' ms' ks' => exact ⟨hmarks, hkids⟩
theorem gwalkList_sources {env : Env} : ∀ (ts : List RTree) {ts' : List RTree} {ctx : Ctx} {c c' : Counter},
    RTree.plains ts → gwalkList env ctx ts c = .ok (ts', c') → AllMarksL FromQuestion ts'
  | [], ts', ctx, c, c', _, hw => by
    simp only [gwalkList] at hw
    rw [← (W.pure_ok hw).1]
    trivial
  | t :: ts, ts', ctx, c, c', hp, hw => by
    simp only [gwalkList] at hw
    simp only [RTree.plains] at hp
    obtain ⟨t1, c1, h1, hw⟩ := W.bind_ok hw
    obtain ⟨t2, c2, h2, hw⟩ := W.bind_ok hw
    rw [← (W.pure_ok hw).1]
    exact ⟨gwalk_sources t hp.1 h1, gwalkList_sources ts hp.2 h2⟩
end

end Hooq
