import Verif.Proof.Position
import Verif.Spec.Position

/-!
# The walk in two environments
-/

namespace Hooq

mutual
/-- Every attribute in the tree satisfies `P`. -/
def RTree.Each (P : Attr → Prop) : RTree → Prop
  | .mk d _ kids => (∀ a ∈ d.attrs, P a) ∧ EachAll P kids
/-- Every attribute in the trees satisfies `P`. -/
def EachAll (P : Attr → Prop) : List RTree → Prop
  | [] => True
  | t :: ts => t.Each P ∧ EachAll P ts
end

theorem eachAll_append {P : Attr → Prop} (l l' : List RTree) :
    EachAll P (l ++ l') ↔ EachAll P l ∧ EachAll P l' := by
  induction l with
  | nil => simp [EachAll]
  | cons t l ih => simp [EachAll, ih, and_assoc]

mutual
theorem each_of_sub {P : Attr → Prop} : ∀ t : RTree,
    (∀ p n, t.sub p = some n → ∀ a ∈ n.data.attrs, P a) → t.Each P
  | .mk d ms kids, h => by
    refine ⟨h [] _ rfl, eachAll_of_sub kids fun i k hi p n hn => h (i :: p) n ?_⟩
    simp only [RTree.sub, hi, hn]
theorem eachAll_of_sub {P : Attr → Prop} : ∀ ts : List RTree,
    (∀ (i : Nat) (k : RTree), ts[i]? = some k → ∀ p n, k.sub p = some n → ∀ a ∈ n.data.attrs, P a) →
    EachAll P ts
  | [], _ => trivial
  | t :: ts, h =>
    ⟨each_of_sub t fun p n hn => h 0 t rfl p n hn,
     eachAll_of_sub ts fun i k hi p n hn => h (i + 1) k (by simpa using hi) p n hn⟩
end

/-- A relation between results that is kept by whatever follows. -/
structure ResRel (R : ∀ {α : Type}, Except Err α → Except Err α → Prop) : Prop where
  refl : ∀ {α : Type} (x : Except Err α), R x x
  bind : ∀ {α β : Type} {x y : Except Err α} {f g : α → Except Err β}, R x y →
    (∀ a, x = .ok a → R (f a) (g a)) → R (x >>= f) (y >>= g)

section
variable {R : ∀ {α : Type}, Except Err α → Except Err α → Prop} {C : Ctx → Ctx → Prop} {P : Attr → Prop}
  {env env' : Env}

/-- The relation for steps of the walk. -/
structure WRel (R : ∀ {α : Type}, Except Err α → Except Err α → Prop) {α : Type} (x y : W α) : Prop where
  run : ∀ c, R (x c) (y c)

/-- What the walk needs to know about the two environments and about contexts that belong
together. -/
structure EnvRel (R : ∀ {α : Type}, Except Err α → Except Err α → Prop) (C : Ctx → Ctx → Prop) (P : Attr → Prop)
    (env env' : Env) : Prop where
  res : ResRel R
  sub : ∀ {c c'}, C c c' → C c.subScope c'.subScope
  fn : ∀ {c c' f}, C c c' → C (c.updateFn f) (c'.updateFn f)
  info : ∀ {c c'}, C c c' → c.fnInfo = c'.fnInfo
  macros : ∀ {c c'}, C c c' → c.hookInMacros = c'.hookInMacros
  ret : ∀ {c c'}, C c c' → ∀ p, retRule c p = retRule c' p
  tail : ∀ {c c'}, C c c' → ∀ tk p, tailRule c tk p = tailRule c' tk p
  hook : ∀ {c c'}, C c c' → ∀ b k sp re, hookExpr env b k sp re c = hookExpr env' b k sp re c'
  handle : ∀ {attrs}, (∀ a ∈ attrs, P a) → ∀ {c c'}, C c c' → ∀ {β : Type} {f g : Handled → Except Err β},
    (∀ h ctx', C h.ctx ctx' → (∀ a ∈ h.attrs, P a) → R (f h) (g { h with ctx := ctx' })) →
    R (handleAttrs env attrs c >>= f) (handleAttrs env' attrs c' >>= g)

theorem EnvRel.closure (H : EnvRel R C P env env') {c c' : Ctx} (h : C c c') (sig : CSig) :
    C (c.updateFn (closureInfo sig c.fnInfo)) (c'.updateFn (closureInfo sig c'.fnInfo)) := by
  rw [H.info h]
  exact H.fn h

theorem WRel.refl (H : ResRel R) {α : Type} (x : W α) : WRel R x x := ⟨fun c => H.refl (x c)⟩

theorem WRel.bind (H : ResRel R) {α β : Type} {x y : W α} {f g : α → W β} (h : WRel R x y)
    (hf : ∀ a, WRel R (f a) (g a)) : WRel R (x >>= f) (y >>= g) := by
  refine ⟨fun c => ?_⟩
  have := H.bind (f := fun p : α × Counter => f p.1 p.2) (g := fun p => g p.1 p.2) (h.run c)
    fun p _ => (hf p.1).run p.2
  exact this

theorem extractFrom_mem {attrs kept : List Attr} {acc acc' : Inert}
    (h : extractFrom env acc attrs = .ok (acc', kept)) : ∀ a ∈ kept, a ∈ attrs := by
  induction attrs generalizing acc kept with
  | nil => simp only [extractFrom, Except.ok.injEq, Prod.mk.injEq] at h; simp [← h.2]
  | cons b rest ih =>
    simp only [extractFrom] at h
    obtain ⟨⟨i, keep⟩, h1, h⟩ := except_bind_ok h
    obtain ⟨⟨j, kept'⟩, h2, h⟩ := except_bind_ok h
    simp only [Except.ok.injEq, Prod.mk.injEq] at h
    obtain ⟨rfl, rfl⟩ := h
    have := ih h2
    intro a ha
    split at ha
    · rcases List.mem_cons.1 ha with rfl | ha
      · simp
      · exact List.mem_cons_of_mem _ (this a ha)
    · exact List.mem_cons_of_mem _ (this a ha)

theorem handleAttrs_mem {attrs : List Attr} {c : Ctx} {h : Handled} (hh : handleAttrs env attrs c = .ok h) :
    ∀ a ∈ h.attrs, a ∈ attrs := by
  simp only [handleAttrs] at hh
  obtain ⟨⟨i, kept⟩, h1, h2⟩ := except_bind_ok hh
  simp only [Except.ok.injEq] at h2
  subst h2
  exact extractFrom_mem h1

/-- The same contexts in two environments. -/
theorem EnvRel.ofEq (res : ResRel R) (rear : env.insertRear = env'.insertRear)
    (shape : env.replaceShape = env'.replaceShape)
    (handle : ∀ attrs, (∀ a ∈ attrs, P a) → ∀ c, R (handleAttrs env attrs c) (handleAttrs env' attrs c)) :
    EnvRel R Eq P env env' where
  res := res
  sub := by rintro _ _ rfl; rfl
  fn := by rintro _ _ _ rfl; rfl
  info := by rintro _ _ rfl; rfl
  macros := by rintro _ _ rfl; rfl
  ret := by rintro _ _ rfl _; rfl
  tail := by rintro _ _ rfl _ _; rfl
  hook := by
    rintro _ _ rfl b k sp re
    funext n
    simp only [hookExpr, render, rear, shape]
  handle := by
    rintro attrs ha c _ rfl β f g hf
    refine res.bind (handle attrs ha c) fun h hh => hf h _ rfl fun a h => ha a (handleAttrs_mem hh a h)

theorem WRel.handle (H : EnvRel R C P env env') {attrs : List Attr} (ha : ∀ a ∈ attrs, P a) {c c' : Ctx}
    (hc : C c c') {β : Type} {f g : Handled → W β}
    (hf : ∀ (h : Handled) (ctx' : Ctx), C h.ctx ctx' → (∀ a ∈ h.attrs, P a) →
      WRel R (f h) (g { h with ctx := ctx' })) :
    WRel R (W.lift (handleAttrs env attrs c) >>= f) (W.lift (handleAttrs env' attrs c') >>= g) := by
  refine ⟨fun n => ?_⟩
  have key : ∀ (x : Except Err Handled) (f : Handled → W β),
      (W.lift x >>= f) n = x >>= fun h => f h n := by
    intro x f
    cases x <;> rfl
  rw [key, key]
  exact H.handle ha hc fun h ctx' h1 h2 => (hf h ctx' h1 h2).run n

theorem WRel.hooked (H : EnvRel R C P env env') {b : Bool} {k : Kind} {sp : Span} {re : Rear} {c c' : Ctx}
    (hc : C c c') {β : Type} {f g : Option HookData → W β} (hf : ∀ r, WRel R (f r) (g r)) :
    WRel R (hookExpr env b k sp re c >>= f) (hookExpr env' b k sp re c' >>= g) := by
  rw [H.hook hc]
  exact WRel.bind H.res (WRel.refl H.res _) hf

theorem viewK_attrs {ed ed' : Edge} {attrs attrs' : List Attr} {sp : Span} : ∀ {k : ExprKind},
    (viewK ed attrs sp k).Each P → (∀ a ∈ attrs', P a) → k.isHooked = false → (viewK ed' attrs' sp k).Each P := by
  intro k h h' hh
  cases k <;> first
    | (simp only [viewK, hnode, onode, RTree.Each] at h ⊢; exact ⟨h', h.2⟩)
    | (simp [ExprKind.isHooked] at hh)

theorem WRel.tail (H : EnvRel R C P env env') {ed : Edge} {attrs : List Attr} {sp : Span} {k : ExprKind}
    (h : (viewK ed attrs sp k).Each P) (tk : TailKind) {ctx ctx' : Ctx} (hc : C ctx ctx')
    (hw : ∀ ed a, (viewK ed a sp k).Each P → ∀ c c', C c c' →
      WRel R (walkKind env c a sp k) (walkKind env' c' a sp k)) :
    WRel R (walkTail env ctx tk attrs sp k fun c a => walkKind env c a sp k)
      (walkTail env' ctx' tk attrs sp k fun c a => walkKind env' c a sp k) := by
  simp only [walkTail]
  split
  · exact WRel.refl H.res _
  · rename_i hk
    split
    · exact WRel.refl H.res _
    · have hk' : k.isHooked = false := by simpa using hk
      have ha : ∀ a ∈ attrs, P a := by
        cases k <;> first
          | (simp only [viewK, hnode, onode, RTree.Each] at h; exact h.1)
          | (simp [ExprKind.isHooked] at hk')
      refine WRel.handle H ha hc fun h1 c1 hc1 hp =>
        WRel.bind H.res (hw ed _ (viewK_attrs h hp hk') _ _ hc1) fun e' => ?_
      simp only [H.tail hc1]
      split
      · refine WRel.hooked H hc1 fun r => ?_
        cases r <;> exact WRel.refl H.res _
      · exact WRel.refl H.res _

/-- Close goals about steps of the walk from the facts about the parts. -/
macro "wrel" H:term : tactic => `(tactic| repeat' first
  | exact WRel.refl ($H).res _
  | assumption
  | (intro _)
  | (refine WRel.handle $H (by assumption) (by assumption) fun _ _ _ _ => ?_)
  | (refine WRel.hooked $H (by assumption) ?_)
  | (refine WRel.bind ($H).res ?_ ?_)
  | exact ($H).sub (by assumption)
  | exact ($H).sub (($H).fn (by assumption))
  | exact ($H).closure (by assumption) _
  | apply_assumption
  | split)

mutual
theorem relE (H : EnvRel R C P env env') : ∀ (e : Expr) (ed : Edge), (viewE ed e).Each P → ∀ ctx ctx',
    C ctx ctx' → WRel R (walkExpr env ctx e) (walkExpr env' ctx' e)
  | .mk attrs sp k, ed, h, ctx, ctx', hc => by
    simp only [viewE] at h
    simp only [walkExpr]
    exact relK H k ed attrs sp h _ _ hc
theorem relK (H : EnvRel R C P env env') : ∀ (k : ExprKind) (ed : Edge) (attrs : List Attr) (sp : Span),
    (viewK ed attrs sp k).Each P → ∀ ctx ctx', C ctx ctx' →
    WRel R (walkKind env ctx attrs sp k) (walkKind env' ctx' attrs sp k)
  | .try_ e q, ed, attrs, sp, h, ctx, ctx', hc => by
    simp only [viewK, hnode, RTree.Each, EachAll, and_true] at h
    have h0 := h.1
    have h1 := relE H e _ h.2
    simp only [walkKind]
    wrel H
  | .ret (some e), ed, attrs, sp, h, ctx, ctx', hc => by
    simp only [viewK, viewO, hnode, RTree.Each, EachAll, and_true] at h
    have h0 := h.1
    have h1 := relE H e _ h.2
    simp only [walkKind]
    refine WRel.handle H h0 hc fun h1 c1 hc1 hp => WRel.bind H.res (relE H e _ h.2 _ _ hc1) fun e' => ?_
    simp only [H.ret hc1]
    wrel H
  | .ret none, ed, attrs, sp, h, ctx, ctx', hc | .continue_ _, ed, attrs, sp, h, ctx, ctx', hc
  | .infer, ed, attrs, sp, h, ctx, ctx', hc
  | .lit _, ed, attrs, sp, h, ctx, ctx', hc | .path _, ed, attrs, sp, h, ctx, ctx', hc
  | .verbatim _, ed, attrs, sp, h, ctx, ctx', hc
  | .hooked _ _ _, ed, attrs, sp, h, ctx, ctx', hc => by
    simp only [walkKind]
    try simp only [viewK, hnode, RTree.Each] at h
    try have h0 := h.1
    wrel H
  | .array es, ed, attrs, sp, h, ctx, ctx', hc | .tuple es, ed, attrs, sp, h, ctx, ctx', hc => by
    simp only [viewK, hnode, RTree.Each] at h
    have h0 := h.1
    have h1 := relEs H es h.2
    simp only [walkKind]
    wrel H
  | .assign _ e, ed, attrs, sp, h, ctx, ctx', hc => by
    simp only [viewK, hnode, RTree.Each, EachAll, and_true] at h
    have h0 := h.1
    have h1 := relE H e _ h.2.2
    simp only [walkKind]
    wrel H
  | .await e, ed, attrs, sp, h, ctx, ctx', hc | .cast e _, ed, attrs, sp, h, ctx, ctx', hc
  | .field e _, ed, attrs, sp, h, ctx, ctx', hc
  | .group e, ed, attrs, sp, h, ctx, ctx', hc | .let_ _ e, ed, attrs, sp, h, ctx, ctx', hc
  | .paren e, ed, attrs, sp, h, ctx, ctx', hc
  | .rawAddr e, ed, attrs, sp, h, ctx, ctx', hc | .reference e, ed, attrs, sp, h, ctx, ctx', hc
  | .unary _ e, ed, attrs, sp, h, ctx, ctx', hc => by
    simp only [viewK, hnode, RTree.Each, EachAll, and_true] at h
    have h0 := h.1
    have h1 := relE H e _ h.2
    simp only [walkKind]
    wrel H
  | .binary l _ r, ed, attrs, sp, h, ctx, ctx', hc | .index l r, ed, attrs, sp, h, ctx, ctx', hc
  | .repeat_ l r, ed, attrs, sp, h, ctx, ctx', hc => by
    simp only [viewK, hnode, RTree.Each, EachAll, and_true] at h
    have h0 := h.1
    have h1 := relE H l _ h.2.1
    have h2 := relE H r _ h.2.2
    simp only [walkKind]
    wrel H
  | .async b, ed, attrs, sp, h, ctx, ctx', hc | .block _ b, ed, attrs, sp, h, ctx, ctx', hc
  | .const_ b, ed, attrs, sp, h, ctx, ctx', hc
  | .loop _ b, ed, attrs, sp, h, ctx, ctx', hc | .tryBlock b, ed, attrs, sp, h, ctx, ctx', hc
  | .unsafe_ b, ed, attrs, sp, h, ctx, ctx', hc => by
    simp only [viewK, hnode, RTree.Each] at h
    have h0 := h.1
    have h1 := relStmts H b _ .blockTail h.2
    simp only [walkKind]
    wrel H
  | .break_ _ v, ed, attrs, sp, h, ctx, ctx', hc | .yield_ v, ed, attrs, sp, h, ctx, ctx', hc => by
    simp only [viewK, hnode, RTree.Each] at h
    have h0 := h.1
    have h1 := relO H v _ h.2
    simp only [walkKind]
    wrel H
  | .call f args, ed, attrs, sp, h, ctx, ctx', hc | .methodCall f _ args, ed, attrs, sp, h, ctx, ctx', hc => by
    simp only [viewK, hnode, RTree.Each, EachAll] at h
    have h0 := h.1
    have h1 := relE H f _ h.2.1
    have h2 := relEs H args h.2.2
    simp only [walkKind]
    wrel H
  | .closure sig body, ed, attrs, sp, h, ctx, ctx', hc => by
    simp only [viewK, hnode, RTree.Each, EachAll, and_true] at h
    have h0 := h.1
    have h1 := relClosureBody H body _ h.2
    simp only [walkKind]
    wrel H
  | .forLoop _ e b, ed, attrs, sp, h, ctx, ctx', hc | .while_ _ e b, ed, attrs, sp, h, ctx, ctx', hc => by
    simp only [viewK, hnode, RTree.Each, EachAll] at h
    have h0 := h.1
    have h1 := relE H e _ h.2.1
    have h2 := relStmts H b _ .blockTail h.2.2
    simp only [walkKind]
    wrel H
  | .if_ c t e, ed, attrs, sp, h, ctx, ctx', hc => by
    simp only [viewK, hnode, RTree.Each, EachAll, eachAll_append] at h
    have h0 := h.1
    have h1 := relE H c _ h.2.1
    have h2 := relStmts H t _ .blockTail h.2.2.1
    have h3 := relO H e _ h.2.2.2
    simp only [walkKind]
    wrel H
  | .mac m, ed, attrs, sp, h, ctx, ctx', hc => by
    simp only [viewK, hnode, RTree.Each] at h
    have h1 := relMac H m attrs h.1 h.2
    simp only [walkKind]
    wrel H
  | .match_ e arms, ed, attrs, sp, h, ctx, ctx', hc => by
    simp only [viewK, hnode, RTree.Each, EachAll] at h
    have h0 := h.1
    have h1 := relE H e _ h.2.1
    have h2 := relArms H arms h.2.2
    simp only [walkKind]
    wrel H
  | .range s _ t, ed, attrs, sp, h, ctx, ctx', hc => by
    simp only [viewK, hnode, RTree.Each, eachAll_append] at h
    have h0 := h.1
    have h1 := relO H s _ h.2.1
    have h2 := relO H t _ h.2.2
    simp only [walkKind]
    wrel H
  | .struct_ _ fs r, ed, attrs, sp, h, ctx, ctx', hc => by
    simp only [viewK, hnode, RTree.Each, eachAll_append] at h
    have h0 := h.1
    have h1 := relFields H fs h.2.1
    have h2 := relO H r _ h.2.2
    simp only [walkKind]
    wrel H
theorem relClosureBody (H : EnvRel R C P env env') : ∀ (e : Expr) (ed : Edge), (viewClosureBody ed e).Each P →
    ∀ ctx ctx', C ctx ctx' → WRel R (walkClosureBody env ctx e) (walkClosureBody env' ctx' e)
  | .mk attrs sp k, ed, h, ctx, ctx', hc => by
    simp only [viewClosureBody] at h
    simp only [walkClosureBody]
    split
    · rename_i hb
      rw [if_pos hb] at h
      exact relClosureBlock H k ed attrs sp h _ _ hc
    · rename_i hb
      rw [if_neg hb] at h
      exact WRel.tail H h _ hc fun ed a h c c' => relK H k ed a sp h c c'
theorem relClosureBlock (H : EnvRel R C P env env') : ∀ (k : ExprKind) (ed : Edge) (attrs : List Attr) (sp : Span),
    (viewClosureBlock ed attrs sp k).Each P → ∀ ctx ctx',
    C ctx ctx' → WRel R (walkClosureBlock env ctx attrs sp k) (walkClosureBlock env' ctx' attrs sp k)
  | .block _ b, ed, attrs, sp, h, ctx, ctx', hc => by
    simp only [viewClosureBlock, hnode, RTree.Each] at h
    have h0 := h.1
    have h1 := relStmts H b _ .fnTail h.2
    simp only [walkClosureBlock]
    wrel H
  | .try_ _ _, _, _, _, _, _, _, _ | .ret _, _, _, _, _, _, _, _ | .array _, _, _, _, _, _, _, _
  | .assign _ _, _, _, _, _, _, _, _
  | .async _, _, _, _, _, _, _, _ | .await _, _, _, _, _, _, _, _ | .binary _ _ _, _, _, _, _, _, _, _
  | .break_ _ _, _, _, _, _, _, _, _ | .call _ _, _, _, _, _, _, _, _ | .cast _ _, _, _, _, _, _, _, _
  | .closure _ _, _, _, _, _, _, _, _ | .const_ _, _, _, _, _, _, _, _ | .continue_ _, _, _, _, _, _, _, _
  | .field _ _, _, _, _, _, _, _, _ | .forLoop _ _ _, _, _, _, _, _, _, _ | .group _, _, _, _, _, _, _, _
  | .if_ _ _ _, _, _, _, _, _, _, _ | .index _ _, _, _, _, _, _, _, _ | .infer, _, _, _, _, _, _, _
  | .let_ _ _, _, _, _, _, _, _, _
  | .lit _, _, _, _, _, _, _, _ | .loop _ _, _, _, _, _, _, _, _ | .mac _, _, _, _, _, _, _, _
  | .match_ _ _, _, _, _, _, _, _, _
  | .methodCall _ _ _, _, _, _, _, _, _, _ | .paren _, _, _, _, _, _, _, _ | .path _, _, _, _, _, _, _, _
  | .range _ _ _, _, _, _, _, _, _, _ | .rawAddr _, _, _, _, _, _, _, _ | .reference _, _, _, _, _, _, _, _
  | .repeat_ _ _, _, _, _, _, _, _, _ | .struct_ _ _ _, _, _, _, _, _, _, _ | .tryBlock _, _, _, _, _, _, _, _
  | .tuple _, _, _, _, _, _, _, _ | .unary _ _, _, _, _, _, _, _, _ | .unsafe_ _, _, _, _, _, _, _, _
  | .verbatim _, _, _, _, _, _, _, _ | .while_ _ _ _, _, _, _, _, _, _, _ | .yield_ _, _, _, _, _, _, _, _
  | .hooked _ _ _, _, _, _, _, _, _, _ => by
    simp only [walkClosureBlock]
    exact WRel.refl H.res _
theorem relArmBody (H : EnvRel R C P env env') : ∀ (e : Expr), (viewArmBody e).Each P →
    ∀ ctx ctx', C ctx ctx' → WRel R (walkArmBody env ctx e) (walkArmBody env' ctx' e)
  | .mk attrs sp k, h, ctx, ctx', hc => by
    simp only [viewArmBody] at h
    simp only [walkArmBody]
    split
    · rename_i hb
      rw [if_pos hb] at h
      exact relK H k _ attrs sp h _ _ hc
    · rename_i hb
      rw [if_neg hb] at h
      exact WRel.tail H h _ hc fun ed a h c c' => relK H k ed a sp h c c'
theorem relEs (H : EnvRel R C P env env') : ∀ es : List Expr, EachAll P (viewEs es) → ∀ ctx ctx',
    C ctx ctx' → WRel R (walkExprs env ctx es) (walkExprs env' ctx' es)
  | [], _, _, _, _ => by simp only [walkExprs]; exact WRel.refl H.res _
  | e :: es, h, ctx, ctx', hc => by
    simp only [viewEs, EachAll] at h
    have h1 := relE H e _ h.1
    have h2 := relEs H es h.2
    simp only [walkExprs]
    wrel H
theorem relO (H : EnvRel R C P env env') : ∀ (v : Option Expr) (ed : Edge), EachAll P (viewO ed v) → ∀ ctx ctx',
    C ctx ctx' → WRel R (walkOpt env ctx v) (walkOpt env' ctx' v)
  | none, _, _, _, _, _ => by simp only [walkOpt]; exact WRel.refl H.res _
  | some e, ed, h, ctx, ctx', hc => by
    simp only [viewO, EachAll, and_true] at h
    have h1 := relE H e _ h
    simp only [walkOpt]
    wrel H
theorem relFields (H : EnvRel R C P env env') : ∀ fs : List FieldVal, EachAll P (viewFields fs) → ∀ ctx ctx',
    C ctx ctx' → WRel R (walkFields env ctx fs) (walkFields env' ctx' fs)
  | [], _, _, _, _ => by simp only [walkFields]; exact WRel.refl H.res _
  | f :: fs, h, ctx, ctx', hc => by
    simp only [viewFields, EachAll] at h
    have h1 := relField H f h.1
    have h2 := relFields H fs h.2
    simp only [walkFields]
    wrel H
theorem relField (H : EnvRel R C P env env') : ∀ f : FieldVal, (viewField f).Each P → ∀ ctx ctx',
    C ctx ctx' → WRel R (walkField env ctx f) (walkField env' ctx' f)
  | .mk attrs _ e, h, ctx, ctx', hc => by
    simp only [viewField, hnode, RTree.Each, EachAll, and_true] at h
    have h0 := h.1
    have h1 := relE H e _ h.2
    simp only [walkField]
    wrel H
theorem relArms (H : EnvRel R C P env env') : ∀ as : List Arm, EachAll P (viewArms as) → ∀ ctx ctx',
    C ctx ctx' → WRel R (walkArms env ctx as) (walkArms env' ctx' as)
  | [], _, _, _, _ => by simp only [walkArms]; exact WRel.refl H.res _
  | a :: as, h, ctx, ctx', hc => by
    simp only [viewArms, EachAll] at h
    have h1 := relArm H a h.1
    have h2 := relArms H as h.2
    simp only [walkArms]
    wrel H
theorem relArm (H : EnvRel R C P env env') : ∀ a : Arm, (viewArm a).Each P → ∀ ctx ctx',
    C ctx ctx' → WRel R (walkArm env ctx a) (walkArm env' ctx' a)
  | .mk attrs _ g b, h, ctx, ctx', hc => by
    simp only [viewArm, onode, RTree.Each, EachAll, eachAll_append, and_true] at h
    have h1 := relO H g _ h.2.1
    have h2 := relArmBody H b h.2.2
    simp only [walkArm]
    wrel H
theorem relStmts (H : EnvRel R C P env env') : ∀ (ss : List Stmt) (ed : Edge) (tk : TailKind),
    EachAll P (viewStmts ed tk ss) → ∀ ctx ctx', C ctx ctx' →
    WRel R (walkStmts env ctx tk ss) (walkStmts env' ctx' tk ss)
  | [], _, _, _, _, _, _ => by simp only [walkStmts]; exact WRel.refl H.res _
  | s :: ss, ed, tk, h, ctx, ctx', hc => by
    simp only [viewStmts, EachAll] at h
    have h1 := relStmt H s ed _ h.1
    have h2 := relStmts H ss ed tk h.2
    simp only [walkStmts]
    wrel H
theorem relStmt (H : EnvRel R C P env env') : ∀ (s : Stmt) (ed : Edge) (tk : Option TailKind),
    (viewStmt ed tk s).Each P → ∀ ctx ctx', C ctx ctx' →
    WRel R (walkStmt env ctx tk s) (walkStmt env' ctx' tk s)
  | .localInit attrs _ e dv, ed, tk, h, ctx, ctx', hc => by
    simp only [viewStmt, hnode, RTree.Each, EachAll] at h
    have h0 := h.1
    have h1 := relE H e _ h.2.1
    have h2 := relO H dv _ h.2.2
    simp only [walkStmt]
    wrel H
  | .localDecl _ _, _, _, _, _, _, _ => by simp only [walkStmt]; exact WRel.refl H.res _
  | .item i, ed, tk, h, ctx, ctx', hc => by
    simp only [viewStmt] at h
    have h1 := relItem H i _ h
    simp only [walkStmt]
    wrel H
  | .expr e semi, ed, tk, h, ctx, ctx', hc => by
    simp only [viewStmt] at h
    have h1 := relStmtExpr H e _ (if semi then none else tk) h
    simp only [walkStmt]
    exact WRel.bind H.res (h1 _ _ hc) fun _ => WRel.refl H.res _
  | .mac attrs m _, ed, tk, h, ctx, ctx', hc => by
    simp only [viewStmt, hnode, RTree.Each] at h
    have h1 := relMac H m attrs h.1 h.2
    simp only [walkStmt]
    wrel H
theorem relStmtExpr (H : EnvRel R C P env env') : ∀ (e : Expr) (ed : Edge) (tk : Option TailKind),
    (viewE ed e).Each P → ∀ ctx ctx', C ctx ctx' →
    WRel R (walkStmtExpr env ctx tk e) (walkStmtExpr env' ctx' tk e)
  | .mk attrs sp k, ed, tk, h, ctx, ctx', hc => by
    simp only [viewE] at h
    cases tk with
    | none => simp only [walkStmtExpr]; exact relK H k ed attrs sp h _ _ hc
    | some tk =>
      simp only [walkStmtExpr]
      exact WRel.tail H h _ hc fun ed a h c c' => relK H k ed a sp h c c'
theorem relMac (H : EnvRel R C P env env') : ∀ (m : Mac) (attrs : List Attr), (∀ a ∈ attrs, P a) →
    EachAll P (viewMac m) → ∀ ctx ctx', C ctx ctx' →
    WRel R (walkMac env ctx attrs m) (walkMac env' ctx' attrs m)
  | .mk p d body, attrs, h0, h, ctx, ctx', hc => by
    simp only [viewMac] at h
    have h1 := relMacBody H body h
    simp only [walkMac]
    refine WRel.handle H h0 hc fun h1 c1 hc1 hp => ?_
    simp only [H.macros hc1]
    wrel H
theorem relMacBody (H : EnvRel R C P env env') : ∀ b : MacBody, EachAll P (viewMacBody b) → ∀ ctx ctx',
    C ctx ctx' → WRel R (walkMacBody env ctx b) (walkMacBody env' ctx' b)
  | .raw _, _, _, _, _ => by simp only [walkMacBody]; exact WRel.refl H.res _
  | .parsed evs, h, ctx, ctx', hc => by
    simp only [viewMacBody] at h
    have h1 := relEvs H evs h
    simp only [walkMacBody]
    wrel H
theorem relEvs (H : EnvRel R C P env env') : ∀ vs : List Ev, EachAll P (viewEvs vs) → ∀ ctx ctx',
    C ctx ctx' → WRel R (walkEvs env ctx vs) (walkEvs env' ctx' vs)
  | [], _, _, _, _ => by simp only [walkEvs]; exact WRel.refl H.res _
  | v :: vs, h, ctx, ctx', hc => by
    simp only [viewEvs, EachAll] at h
    have h1 := relEv H v h.1
    have h2 := relEvs H vs h.2
    simp only [walkEvs]
    wrel H
theorem relEv (H : EnvRel R C P env env') : ∀ v : Ev, (viewEv v).Each P → ∀ ctx ctx',
    C ctx ctx' → WRel R (walkEv env ctx v) (walkEv env' ctx' v)
  | .file _ items _, h, ctx, ctx', hc => by
    simp only [viewEv, onode, RTree.Each] at h
    have h1 := relItems H items h.2
    simp only [walkEv]
    wrel H
  | .item i _, h, ctx, ctx', hc => by
    simp only [viewEv] at h
    have h1 := relItem H i _ h
    simp only [walkEv]
    wrel H
  | .expr e _, h, ctx, ctx', hc => by
    simp only [viewEv] at h
    have h1 := relE H e _ h
    simp only [walkEv]
    wrel H
  | .stmt s _, h, ctx, ctx', hc => by
    simp only [viewEv] at h
    have h1 := relStmt H s _ none h
    simp only [walkEv]
    wrel H
theorem relItem (H : EnvRel R C P env env') : ∀ (i : Item) (ed : Edge), (viewItem ed i).Each P → ∀ ctx ctx',
    C ctx ctx' → WRel R (walkItem env ctx i) (walkItem env' ctx' i)
  | .fn attrs sig body, ed, h, ctx, ctx', hc => by
    simp only [viewItem, hnode, RTree.Each] at h
    have h0 := h.1
    have h1 := relStmts H body _ .fnTail h.2
    simp only [walkItem]
    wrel H
  | .impl_ attrs _ items, ed, h, ctx, ctx', hc => by
    simp only [viewItem, hnode, RTree.Each] at h
    have h0 := h.1
    have h1 := relImplItems H items h.2
    simp only [walkItem]
    wrel H
  | .mod_ attrs _ items, ed, h, ctx, ctx', hc => by
    simp only [viewItem, hnode, RTree.Each] at h
    have h0 := h.1
    have h1 := relItems H items h.2
    simp only [walkItem]
    wrel H
  | .trait_ attrs _ items, ed, h, ctx, ctx', hc => by
    simp only [viewItem, hnode, RTree.Each] at h
    have h0 := h.1
    have h1 := relTraitItems H items h.2
    simp only [walkItem]
    wrel H
  | .const_ attrs _ e, ed, h, ctx, ctx', hc | .static_ attrs _ e, ed, h, ctx, ctx', hc => by
    simp only [viewItem, hnode, RTree.Each, EachAll, and_true] at h
    have h0 := h.1
    have h1 := relE H e _ h.2
    simp only [walkItem]
    wrel H
  | .mac attrs m, ed, h, ctx, ctx', hc => by
    simp only [viewItem, hnode, RTree.Each] at h
    have h1 := relMac H m attrs h.1 h.2
    simp only [walkItem]
    wrel H
  | .macroRules _ _ _, _, _, _, _, _ | .other _ _, _, _, _, _, _ => by
    simp only [walkItem]
    exact WRel.refl H.res _
theorem relItems (H : EnvRel R C P env env') : ∀ is : List Item, EachAll P (viewItems is) → ∀ ctx ctx',
    C ctx ctx' → WRel R (walkItems env ctx is) (walkItems env' ctx' is)
  | [], _, _, _, _ => by simp only [walkItems]; exact WRel.refl H.res _
  | i :: is, h, ctx, ctx', hc => by
    simp only [viewItems, EachAll] at h
    have h1 := relItem H i _ h.1
    have h2 := relItems H is h.2
    simp only [walkItems]
    wrel H
theorem relImplItems (H : EnvRel R C P env env') : ∀ is : List ImplItem, EachAll P (viewImplItems is) → ∀ ctx ctx',
    C ctx ctx' → WRel R (walkImplItems env ctx is) (walkImplItems env' ctx' is)
  | [], _, _, _, _ => by simp only [walkImplItems]; exact WRel.refl H.res _
  | i :: is, h, ctx, ctx', hc => by
    simp only [viewImplItems, EachAll] at h
    have h1 := relImplItem H i h.1
    have h2 := relImplItems H is h.2
    simp only [walkImplItems]
    wrel H
theorem relImplItem (H : EnvRel R C P env env') : ∀ i : ImplItem, (viewImplItem i).Each P → ∀ ctx ctx',
    C ctx ctx' → WRel R (walkImplItem env ctx i) (walkImplItem env' ctx' i)
  | .fn attrs sig body, h, ctx, ctx', hc => by
    simp only [viewImplItem, hnode, RTree.Each] at h
    have h0 := h.1
    have h1 := relStmts H body _ .fnTail h.2
    simp only [walkImplItem]
    wrel H
  | .const_ attrs _ e, h, ctx, ctx', hc => by
    simp only [viewImplItem, hnode, RTree.Each, EachAll, and_true] at h
    have h0 := h.1
    have h1 := relE H e _ h.2
    simp only [walkImplItem]
    wrel H
  | .mac attrs m, h, ctx, ctx', hc => by
    simp only [viewImplItem, hnode, RTree.Each] at h
    have h1 := relMac H m attrs h.1 h.2
    simp only [walkImplItem]
    wrel H
  | .other _ _, _, _, _, _ => by
    simp only [walkImplItem]
    exact WRel.refl H.res _
theorem relTraitItems (H : EnvRel R C P env env') : ∀ is : List TraitItem, EachAll P (viewTraitItems is) → ∀ ctx ctx',
    C ctx ctx' → WRel R (walkTraitItems env ctx is) (walkTraitItems env' ctx' is)
  | [], _, _, _, _ => by simp only [walkTraitItems]; exact WRel.refl H.res _
  | i :: is, h, ctx, ctx', hc => by
    simp only [viewTraitItems, EachAll] at h
    have h1 := relTraitItem H i h.1
    have h2 := relTraitItems H is h.2
    simp only [walkTraitItems]
    wrel H
theorem relTraitItem (H : EnvRel R C P env env') : ∀ i : TraitItem, (viewTraitItem i).Each P → ∀ ctx ctx',
    C ctx ctx' → WRel R (walkTraitItem env ctx i) (walkTraitItem env' ctx' i)
  | .fn attrs sig body, h, ctx, ctx', hc => by
    simp only [viewTraitItem, hnode, RTree.Each] at h
    have h0 := h.1
    have h1 := relStmts H body _ .fnTail h.2
    simp only [walkTraitItem]
    wrel H
  | .const_ attrs _ e, h, ctx, ctx', hc => by
    simp only [viewTraitItem, hnode, RTree.Each, EachAll, and_true] at h
    have h0 := h.1
    have h1 := relE H e _ h.2
    simp only [walkTraitItem]
    wrel H
  | .mac attrs m, h, ctx, ctx', hc => by
    simp only [viewTraitItem, hnode, RTree.Each] at h
    have h1 := relMac H m attrs h.1 h.2
    simp only [walkTraitItem]
    wrel H
  | .other _ _, _, _, _, _ => by
    simp only [walkTraitItem]
    exact WRel.refl H.res _
end

end

end Hooq
