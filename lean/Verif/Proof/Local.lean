import Verif.Proof.Position
import Verif.Proof.Shape
import Verif.Proof.RefineMain

/-!
# The uniform walk at a position

What the walk does at a node depends on the context only; a successful walk of a
tree contains a successful walk of every subtree it reaches.
-/

namespace Hooq

theorem W.bind_ok {α β : Type} {x : W α} {f : α → W β} {c c' : Counter} {b : β}
    (h : (x >>= f) c = .ok (b, c')) : ∃ a c1, x c = .ok (a, c1) ∧ f a c1 = .ok (b, c') := by
  simp only [Bind.bind, StateT.bind] at h
  cases hx : x c with
  | error e => simp [hx, Except.bind] at h
  | ok r => exact ⟨r.1, r.2, rfl, by simpa [hx, Except.bind] using h⟩

theorem W.pure_ok {α : Type} {a b : α} {c c' : Counter} (h : (pure a : W α) c = .ok (b, c')) :
    a = b ∧ c = c' := by
  simp only [Pure.pure, StateT.pure, Except.pure, Except.ok.injEq, Prod.mk.injEq] at h
  exact h

theorem W.lift_inv {α : Type} {x : Except Err α} {a : α} {c c' : Counter}
    (h : W.lift x c = .ok (a, c')) : x = .ok a ∧ c' = c := by
  cases x with
  | error e => simp [W.lift, Except.map] at h
  | ok r => simp [W.lift, Except.map] at h; exact ⟨by rw [h.1], h.2.symm⟩

theorem W.map_ok {α β : Type} {x : W α} {f : α → β} {c c' : Counter} {b : β}
    (h : (f <$> x) c = .ok (b, c')) : ∃ a, x c = .ok (a, c') ∧ f a = b := by
  simp only [Functor.map, StateT.map, bind, Except.bind, pure, Except.pure] at h
  cases hx : x c with
  | error e => simp [hx] at h
  | ok r => simp [hx] at h; exact ⟨r.1, by rw [← h.2], h.1⟩

theorem W.map_ok_of {α β : Type} {x : W α} {f : α → β} {c c' : Counter} {a : α}
    (h : x c = .ok (a, c')) : (f <$> x) c = .ok (f a, c') := by
  simp [Functor.map, StateT.map, bind, Except.bind, pure, Except.pure, h]

/-- The steps of a successful visit of a node. -/
theorem gwalk_inv {env : Env} {ctx : Ctx} {d : Data} {ms : List (HookData × RTree)}
    {kids : List RTree} {t' : RTree} {c c' : Counter} (hv : d.edge.visit = true)
    (h : gwalk env ctx (.mk d ms kids) c = .ok (t', c')) :
    (RTree.mk d ms kids).built = false ∧ ∃ hd kids' ck t ct,
      d.handle env (d.edge.enter ctx) = .ok hd ∧
      gopen (d.opens hd.ctx) kids (gwalkList env hd.ctx kids) c = .ok (kids', ck) ∧
      gtarget env hd d kids kids' ck = .ok (t, ct) ∧ gtail env hd d kids t ct = .ok (t', c') := by
  simp only [gwalk, hv, if_true] at h
  split at h
  · have := (W.lift_inv h).1; simp at this
  · rename_i hb
    refine ⟨by simpa using hb, ?_⟩
    obtain ⟨hd, c1, h1, h2⟩ := W.bind_ok h
    obtain ⟨h1', rfl⟩ := W.lift_inv h1
    obtain ⟨kids', ck, h3, h4⟩ := W.bind_ok h2
    obtain ⟨t, ct, h5, h6⟩ := W.bind_ok h4
    exact ⟨hd, kids', ck, t, ct, h1', h3, h5, h6⟩

/-- Outcome of `hook_expr`. -/
theorem hookExpr_inv {env : Env} {apply : Bool} {kind : Kind} {sp : Span} {re : Rear} {ctx : Ctx}
    {o : Option HookData} {c c' : Counter} (h : hookExpr env apply kind sp re ctx c = .ok (o, c')) :
    c' = (if apply then c.countUp kind else c) ∧
    (if apply && ctx.targets.has kind then
      ∃ hk, o = some hk ∧
        render env { ctx := ctx, kind := kind, count := c'.get kind, span := sp, rear := re } = .ok hk
     else o = none) := by
  simp only [hookExpr] at h
  cases apply with
  | false => simp at h; simp [h.1.symm, h.2.symm]
  | true =>
    simp only [if_true] at h
    cases ht : ctx.targets.has kind with
    | false => simp [ht] at h; simp [h.1.symm, h.2.symm]
    | true =>
      simp only [ht, if_true] at h
      cases hr : render env { ctx := ctx, kind := kind, count := (c.countUp kind).get kind, span := sp, rear := re } with
      | error e => simp [hr, Except.map] at h
      | ok hk =>
        simp [hr, Except.map] at h
        obtain ⟨rfl, rfl⟩ := h
        simp [hr]

/-- The source text of a target: the node as it was, without inert attributes. -/
def sourceTree (d : Data) (attrs : List Attr) (kids : List RTree) : RTree :=
  .mk { d with edge := {}, attrs := attrs } [] kids

/-- Outcome of the `?`/`return` step. -/
structure TargetOut (env : Env) (h : Handled) (d : Data) (kids kids' : List RTree) (t : RTree)
    (c c' : Counter) : Prop where
  marks : t.marks = []
  edge : t.data.edge = d.edge
  mode : t.data.mode = d.mode
  span : t.data.span = d.span
  leftmost : t.data.leftmost = d.leftmost
  rear : t.data.rear = d.rear
  question : ∀ q b, d.tag = .question q b →
    (if !h.isSkipped && h.ctx.targets.has .question then
      ∃ hk, c' = c.countUp .question ∧
        render env { ctx := h.ctx, kind := .question, count := c'.get .question, span := q,
                     rear := RTree.rearHead kids' } = .ok hk ∧
        t.kids = markHead (hk, sourceTree d h.attrs kids) kids' ∧
        (if hk.exc then t.data.tag = .question q true ∧ t.data.attrs = []
         else t.data.tag = d.tag ∧ t.data.attrs = h.attrs)
     else c' = (if !h.isSkipped then c.countUp .question else c) ∧ t.kids = kids' ∧
       t.data.tag = d.tag ∧ t.data.attrs = h.attrs)
  ret : d.tag = .ret → t.data.tag = .ret ∧ t.data.attrs = h.attrs ∧
    (match kids' with
     | [] => t.kids = [] ∧ c' = c
     | k :: _ =>
      if retRule h.ctx k.callee then
        (if !h.isSkipped && h.ctx.targets.has .ret then
          ∃ hk, c' = c.countUp .ret ∧
            render env { ctx := h.ctx, kind := .ret, count := c'.get .ret, span := d.span, rear := k.rear } = .ok hk ∧
            t.kids = markHead (hk, sourceTree d h.attrs kids) kids'
         else c' = (if !h.isSkipped then c.countUp .ret else c) ∧ t.kids = kids')
      else t.kids = kids' ∧ c' = c)
  other : (∀ q b, d.tag ≠ .question q b) → d.tag ≠ .ret →
    t.data.tag = d.tag ∧ t.data.attrs = h.attrs ∧ t.kids = kids' ∧ c' = c

theorem TargetOut.ofQuestion {env : Env} {h : Handled} {d d1 : Data} {kids kids' kids1 : List RTree}
    {c c' : Counter} {q : Span} {b : Bool} (htag : d.tag = .question q b)
    (e1 : d1.edge = d.edge) (e2 : d1.mode = d.mode) (e3 : d1.span = d.span) (e4 : d1.leftmost = d.leftmost)
    (e5 : d1.rear = d.rear)
    (hq : if !h.isSkipped && h.ctx.targets.has .question then
      ∃ hk, c' = c.countUp .question ∧
        render env { ctx := h.ctx, kind := .question, count := c'.get .question, span := q,
                     rear := RTree.rearHead kids' } = .ok hk ∧
        kids1 = markHead (hk, sourceTree d h.attrs kids) kids' ∧
        (if hk.exc then d1.tag = .question q true ∧ d1.attrs = []
         else d1.tag = d.tag ∧ d1.attrs = h.attrs)
     else c' = (if !h.isSkipped then c.countUp .question else c) ∧ kids1 = kids' ∧
       d1.tag = d.tag ∧ d1.attrs = h.attrs) :
    TargetOut env h d kids kids' (.mk d1 [] kids1) c c' where
  marks := rfl
  edge := e1
  mode := e2
  span := e3
  leftmost := e4
  rear := e5
  question := fun q' b' h' => by rw [htag] at h'; cases h'; exact hq
  ret := fun h' => by rw [htag] at h'; cases h'
  other := fun h' => absurd htag (h' q b)

theorem TargetOut.ofRet {env : Env} {h : Handled} {d d1 : Data} {kids kids' kids1 : List RTree}
    {c c' : Counter} (htag : d.tag = .ret) (e1 : d1 = { d with attrs := h.attrs })
    (hq : match kids' with
     | [] => kids1 = [] ∧ c' = c
     | k :: _ =>
      if retRule h.ctx k.callee then
        (if !h.isSkipped && h.ctx.targets.has .ret then
          ∃ hk, c' = c.countUp .ret ∧
            render env { ctx := h.ctx, kind := .ret, count := c'.get .ret, span := d.span, rear := k.rear } = .ok hk ∧
            kids1 = markHead (hk, sourceTree d h.attrs kids) kids'
         else c' = (if !h.isSkipped then c.countUp .ret else c) ∧ kids1 = kids')
      else kids1 = kids' ∧ c' = c) :
    TargetOut env h d kids kids' (.mk d1 [] kids1) c c' where
  marks := rfl
  edge := by simp [RTree.data, e1]
  mode := by simp [RTree.data, e1]
  span := by simp [RTree.data, e1]
  leftmost := by simp [RTree.data, e1]
  rear := by simp [RTree.data, e1]
  question := fun q' b' h' => by rw [htag] at h'; cases h'
  ret := fun _ => ⟨by simp [RTree.data, e1, htag], by simp [RTree.data, e1], by cases kids' <;> exact hq⟩
  other := fun _ h' => absurd htag h'

theorem gtarget_inv {env : Env} {h : Handled} {d : Data} {kids kids' : List RTree} {t : RTree}
    {c c' : Counter} (hg : gtarget env h d kids kids' c = .ok (t, c')) :
    TargetOut env h d kids kids' t c c' := by
  simp only [gtarget] at hg
  cases htag : d.tag with
  | question q b =>
    simp only [htag] at hg
    obtain ⟨o, c1, h1, h2⟩ := W.bind_ok hg
    obtain ⟨hc, ho⟩ := hookExpr_inv h1
    cases hs : (!h.isSkipped && h.ctx.targets.has .question) with
    | false =>
      simp only [hs, Bool.false_eq_true, if_false] at ho
      subst ho
      obtain ⟨rfl, rfl⟩ := W.pure_ok h2
      refine TargetOut.ofQuestion htag rfl rfl rfl rfl rfl ?_
      simp only [hs, Bool.false_eq_true, if_false, htag]
      exact ⟨hc, trivial, trivial, trivial⟩
    | true =>
      simp only [hs, if_true] at ho
      obtain ⟨hk, rfl, hr⟩ := ho
      have hap : (!h.isSkipped) = true := by revert hs; cases (!h.isSkipped) <;> simp
      rw [hap] at hc
      simp only [if_true] at hc
      simp only at h2
      split at h2
      · rename_i he
        obtain ⟨rfl, rfl⟩ := W.pure_ok h2
        refine TargetOut.ofQuestion htag rfl rfl rfl rfl rfl ?_
        simp only [hs, if_true, htag]
        exact ⟨hk, hc, hr, by simp only [sourceTree, htag], by simp [he]⟩
      · rename_i he
        obtain ⟨rfl, rfl⟩ := W.pure_ok h2
        refine TargetOut.ofQuestion htag rfl rfl rfl rfl rfl ?_
        simp only [hs, if_true, htag]
        exact ⟨hk, hc, hr, by simp only [sourceTree, htag], by simp [he]⟩
  | ret =>
    simp only [htag] at hg
    cases kids' with
    | nil =>
      obtain ⟨rfl, rfl⟩ := W.pure_ok hg
      exact TargetOut.ofRet htag (by rw [← htag]) (by simp)
    | cons k ks =>
      simp only at hg
      split at hg
      · rename_i hrule
        obtain ⟨o, c1, h1, h2⟩ := W.bind_ok hg
        obtain ⟨hc, ho⟩ := hookExpr_inv h1
        cases hs : (!h.isSkipped && h.ctx.targets.has .ret) with
        | false =>
          simp only [hs, Bool.false_eq_true, if_false] at ho
          subst ho
          obtain ⟨rfl, rfl⟩ := W.pure_ok h2
          refine TargetOut.ofRet htag (by rw [← htag]) ?_
          simp only [hrule, if_true, hs, Bool.false_eq_true, if_false]
          exact ⟨hc, trivial⟩
        | true =>
          simp only [hs, if_true] at ho
          obtain ⟨hk, rfl, hr⟩ := ho
          have hap : (!h.isSkipped) = true := by revert hs; cases (!h.isSkipped) <;> simp
          rw [hap] at hc
          simp only [if_true] at hc
          obtain ⟨rfl, rfl⟩ := W.pure_ok h2
          refine TargetOut.ofRet htag (by rw [← htag]) ?_
          simp only [hrule, if_true, hs]
          exact ⟨hk, hc, hr, by simp only [sourceTree, htag]⟩
      · rename_i hrule
        obtain ⟨rfl, rfl⟩ := W.pure_ok hg
        refine TargetOut.ofRet htag (by rw [← htag]) ?_
        simp only [hrule]
        exact ⟨trivial, trivial⟩
  | call | path p | mac | other l =>
    simp only [htag] at hg
    obtain ⟨rfl, rfl⟩ := W.pure_ok hg
    constructor <;> simp [RTree.marks, RTree.data, RTree.kids, htag]

/-- Outcome of the tail step. -/
theorem gtail_inv {env : Env} {h : Handled} {d : Data} {kids : List RTree} {t t' : RTree}
    {c c' : Counter} (hg : gtail env h d kids t c = .ok (t', c')) :
    t'.data = t.data ∧ t'.kids = t.kids ∧
    (match d.edge.tail with
     | none => t' = t ∧ c' = c
     | some tk =>
      if d.mode ≠ .untouched ∧ tailRule h.ctx tk t.callee = true then
        (if !h.isSkipped && h.ctx.targets.has .tail then
          ∃ hk, c' = c.countUp .tail ∧
            render env { ctx := h.ctx, kind := .tail, count := c'.get .tail, span := t.start, rear := t.rear } = .ok hk ∧
            t'.marks = t.marks ++ [(hk, sourceTree d h.attrs kids)]
         else c' = (if !h.isSkipped then c.countUp .tail else c) ∧ t' = t)
      else t' = t ∧ c' = c) := by
  simp only [gtail] at hg
  cases htl : d.edge.tail with
  | none =>
    simp only [htl] at hg
    obtain ⟨rfl, rfl⟩ := W.pure_ok hg
    simp
  | some tk =>
    simp only [htl] at hg
    split at hg
    · rename_i hm
      obtain ⟨rfl, rfl⟩ := W.pure_ok hg
      simp [hm]
    · rename_i hm
      split at hg
      · rename_i hrule
        obtain ⟨o, c1, h1, h2⟩ := W.bind_ok hg
        obtain ⟨hc, ho⟩ := hookExpr_inv h1
        simp only [ne_eq, hm, not_false_eq_true, hrule, and_self, if_true]
        cases hs : (!h.isSkipped && h.ctx.targets.has .tail) with
        | false =>
          simp only [hs, Bool.false_eq_true, if_false] at ho
          subst ho
          obtain ⟨rfl, rfl⟩ := W.pure_ok h2
          simpa using hc
        | true =>
          simp only [hs, if_true] at ho
          obtain ⟨hk, rfl, hr⟩ := ho
          have hap : (!h.isSkipped) = true := by revert hs; cases (!h.isSkipped) <;> simp
          rw [hap] at hc
          simp only [if_true] at hc
          obtain ⟨rfl, rfl⟩ := W.pure_ok h2
          cases t
          exact ⟨rfl, rfl, hk, hc, hr, rfl⟩
      · rename_i hrule
        obtain ⟨rfl, rfl⟩ := W.pure_ok hg
        simp [hrule]

/-- A successful walk of a list contains a successful walk of each element. -/
theorem gwalkList_inv {env : Env} {ctx : Ctx} {kids kids' : List RTree} {c c' : Counter}
    (h : gwalkList env ctx kids c = .ok (kids', c')) :
    kids'.length = kids.length ∧ ∀ (i : Nat) k, kids[i]? = some k →
      ∃ k' ci ci', kids'[i]? = some k' ∧ gwalk env ctx k ci = .ok (k', ci') := by
  induction kids generalizing c c' kids' with
  | nil =>
    simp only [gwalkList] at h
    obtain ⟨rfl, rfl⟩ := W.pure_ok h
    simp
  | cons t ts ih =>
    simp only [gwalkList] at h
    obtain ⟨t', c1, h1, h2⟩ := W.bind_ok h
    obtain ⟨ts', c2, h3, h4⟩ := W.bind_ok h2
    obtain ⟨rfl, rfl⟩ := W.pure_ok h4
    obtain ⟨hl, hi⟩ := ih h3
    refine ⟨by simp [hl], ?_⟩
    intro i k hk
    cases i with
    | zero => simp at hk; subst hk; exact ⟨t', c, c1, by simp, h1⟩
    | succ i =>
      simp at hk
      obtain ⟨k', ci, ci', h5, h6⟩ := hi i k hk
      exact ⟨k', ci, ci', by simpa using h5, h6⟩

end Hooq
