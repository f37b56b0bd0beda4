import Verif.Spec.AttrForm
import Verif.Proof.Local
import Verif.Proof.Position

/-!
# Foreign attributes do not influence the walk
-/

namespace Hooq

theorem inertOnlyMarks_fst (ms : List (HookData × RTree)) :
    (RTree.inertOnlyMarks ms).map Prod.fst = ms.map Prod.fst := by
  induction ms with
  | nil => rfl
  | cons m ms ih => obtain ⟨hk, t⟩ := m; simp [RTree.inertOnlyMarks, RTree.inertOnlyMark, ih]

theorem inertOnlyMarks_append (a b : List (HookData × RTree)) :
    RTree.inertOnlyMarks (a ++ b) = RTree.inertOnlyMarks a ++ RTree.inertOnlyMarks b := by
  induction a with
  | nil => rfl
  | cons m ms ih => simp [RTree.inertOnlyMarks, ih]

theorem inertOnlyMarks_isEmpty (ms : List (HookData × RTree)) :
    (RTree.inertOnlyMarks ms).isEmpty = ms.isEmpty := by
  cases ms <;> rfl

mutual
theorem asPath_inertOnly : ∀ t : RTree, t.inertOnly.asPath = t.asPath
  | .mk d ms ks => by
    have h := asPathHead_inertOnly ks
    simp only [RTree.inertOnly, RTree.asPath, inertOnlyMarks_fst, h]
theorem asPathHead_inertOnly : ∀ ks : List RTree,
    RTree.asPathHead (RTree.inertOnlyList ks) = RTree.asPathHead ks
  | [] => rfl
  | k :: _ => by simp only [RTree.inertOnlyList, RTree.asPathHead]; exact asPath_inertOnly k
end

mutual
theorem callee_inertOnly : ∀ t : RTree, t.inertOnly.callee = t.callee
  | .mk d ms ks => by
    have h := calleeHead_inertOnly ks
    have h2 := asPathHead_inertOnly ks
    simp only [RTree.inertOnly, RTree.callee, inertOnlyMarks_fst, h, h2]
theorem calleeHead_inertOnly : ∀ ks : List RTree,
    RTree.calleeHead (RTree.inertOnlyList ks) = RTree.calleeHead ks
  | [] => rfl
  | k :: _ => by simp only [RTree.inertOnlyList, RTree.calleeHead]; exact callee_inertOnly k
end

mutual
theorem start_inertOnly : ∀ t : RTree, t.inertOnly.start = t.start
  | .mk d ms ks => by
    have h := startHead_inertOnly d.span ks
    simp only [RTree.inertOnly, RTree.start, inertOnlyMarks_fst, h]
theorem startHead_inertOnly (sp : Span) : ∀ ks : List RTree,
    RTree.startHead sp (RTree.inertOnlyList ks) = RTree.startHead sp ks
  | [] => rfl
  | k :: _ => by simp only [RTree.inertOnlyList, RTree.startHead]; exact start_inertOnly k
end

mutual
theorem rear_inertOnly : ∀ t : RTree, t.inertOnly.rear = t.rear
  | .mk d ms ks => by
    have h := rearLast_inertOnly ks
    simp only [RTree.inertOnly, RTree.rear, inertOnlyMarks_fst, h]
theorem rearLast_inertOnly : ∀ ks : List RTree,
    RTree.rearLast (RTree.inertOnlyList ks) = RTree.rearLast ks
  | [] => rfl
  | [k] => by simp only [RTree.inertOnlyList, RTree.rearLast]; exact rear_inertOnly k
  | _ :: k :: ks => by
    have := rearLast_inertOnly (k :: ks)
    simpa only [RTree.inertOnlyList, RTree.rearLast] using this
end

theorem rearHead_inertOnly (ks : List RTree) :
    RTree.rearHead (RTree.inertOnlyList ks) = RTree.rearHead ks := by
  cases ks with
  | nil => rfl
  | cons k ks => simp only [RTree.inertOnlyList, RTree.rearHead]; exact rear_inertOnly k

theorem built_inertOnly (t : RTree) : t.inertOnly.built = t.built := by
  obtain ⟨d, ms, ks⟩ := t
  simp only [RTree.inertOnly, RTree.built, inertOnlyMarks_isEmpty]

theorem addMark_inertOnly (hk : HookData) (src t : RTree) :
    (t.addMark (hk, src)).inertOnly = t.inertOnly.addMark (hk, src.inertOnly) := by
  obtain ⟨d, ms, ks⟩ := t
  simp [RTree.inertOnly, RTree.addMark, inertOnlyMarks_append, RTree.inertOnlyMarks,
    RTree.inertOnlyMark]

theorem markHead_inertOnly (hk : HookData) (src : RTree) (ks : List RTree) :
    RTree.inertOnlyList (markHead (hk, src) ks)
      = markHead (hk, src.inertOnly) (RTree.inertOnlyList ks) := by
  cases ks with
  | nil => rfl
  | cons k ks => simp [markHead, RTree.inertOnlyList, addMark_inertOnly]

theorem inertStep_foreign (env : Env) (acc : Inert) {a : Attr} (h : a.isInert = false) :
    inertStep env acc a = .ok (acc, true) := by
  have hn : ∀ n, a.getPath ≠ hooqPath n := by
    intro n e
    simp [Meta.isInert, e, hooqPath, Path.ofIdents] at h
  have hg : getBindingName a.getPath = .ok none := by
    simp only [Meta.isInert] at h
    simp only [getBindingName]
    cases hs : a.getPath.segs with
    | nil => rfl
    | cons s rest =>
      simp only [hs] at h ⊢
      cases rest with
      | nil => simp
      | cons y ys => simp at h; simp [h]
  cases a with
  | path p => simp [inertStep, Meta.getPath] at hn hg ⊢; simp [hn, hg, bind, Except.bind]
  | list p ts => simp [inertStep, Meta.getPath] at hn hg ⊢; simp [hn, hg, bind, Except.bind]
  | nv p v => simp [inertStep, Meta.getPath] at hn hg ⊢; simp [hn, hg, bind, Except.bind]

theorem extractFrom_inertOnly (env : Env) (acc : Inert) (attrs : List Attr) :
    extractFrom env acc (attrs.filter Meta.isInert)
      = (extractFrom env acc attrs).map fun r => (r.1, r.2.filter Meta.isInert) := by
  induction attrs generalizing acc with
  | nil => rfl
  | cons a rest ih =>
    cases ha : a.isInert with
    | false =>
      rw [List.filter_cons_of_neg (by simp [ha]), ih]
      simp only [extractFrom, inertStep_foreign env acc ha, bind, Except.bind]
      cases extractFrom env acc rest with
      | error e => rfl
      | ok r => simp [Except.map, ha]
    | true =>
      rw [List.filter_cons_of_pos ha]
      simp only [extractFrom]
      cases hs : inertStep env acc a with
      | error e => rfl
      | ok r =>
        obtain ⟨acc1, keep⟩ := r
        have hk := (inertStep_spec hs).keep
        rw [ha] at hk
        simp only [bind, Except.bind, ih]
        cases extractFrom env acc1 rest with
        | error e => rfl
        | ok r => simp [Except.map, hk]

/-- A handled node without its foreign attributes. -/
def Handled.inertOnly (h : Handled) : Handled := { h with attrs := h.attrs.filter Meta.isInert }

theorem handleAttrs_inertOnly (env : Env) (attrs : List Attr) (c : Ctx) :
    handleAttrs env (attrs.filter Meta.isInert) c
      = (handleAttrs env attrs c).map Handled.inertOnly := by
  simp only [handleAttrs, extract, extractFrom_inertOnly]
  cases extractFrom env {} attrs with
  | error e => rfl
  | ok r => simp [bind, Except.bind, Except.map, Handled.inertOnly]

theorem handle_inertOnly (env : Env) (d : Data) (c : Ctx) :
    ({ d with attrs := d.attrs.filter Meta.isInert } : Data).handle env c
      = (d.handle env c).map Handled.inertOnly := by
  simp only [Data.handle]
  have : ({ d with attrs := d.attrs.filter Meta.isInert } : Data).handles = d.handles := rfl
  rw [this]
  cases d.handles with
  | true => simp only [if_true]; exact handleAttrs_inertOnly env d.attrs c
  | false =>
    simp only [Bool.false_eq_true, if_false, Except.map, Handled.inertOnly]
    cases d.mode <;> simp

theorem gtarget_inertOnly (env : Env) (h : Handled) (d : Data) (kids kids' : List RTree) :
    gtarget env h.inertOnly { d with attrs := d.attrs.filter Meta.isInert } (RTree.inertOnlyList kids)
        (RTree.inertOnlyList kids')
      = RTree.inertOnly <$> gtarget env h d kids kids' := by
  simp only [gtarget]
  cases d.tag with
  | question q b =>
    simp only [Handled.inertOnly, rearHead_inertOnly, map_bind]
    congr 1
    funext o
    cases o with
    | none => simp [RTree.inertOnly, RTree.inertOnlyMarks]
    | some hk =>
      simp only
      split <;> simp [RTree.inertOnly, RTree.inertOnlyMarks, markHead_inertOnly]
  | ret =>
    cases kids' with
    | nil => simp [RTree.inertOnly, RTree.inertOnlyMarks, RTree.inertOnlyList, Handled.inertOnly]
    | cons k ks =>
      simp only [RTree.inertOnlyList, callee_inertOnly, rear_inertOnly, Handled.inertOnly]
      split
      · simp only [map_bind]
        congr 1
        funext o
        cases o with
        | none => simp [RTree.inertOnly, RTree.inertOnlyMarks, RTree.inertOnlyList]
        | some hk =>
          simp [RTree.inertOnly, RTree.inertOnlyMarks, RTree.inertOnlyList, markHead,
            addMark_inertOnly]
      · simp [RTree.inertOnly, RTree.inertOnlyMarks, RTree.inertOnlyList]
  | call | path _ | mac | other _ => simp [RTree.inertOnly, RTree.inertOnlyMarks, Handled.inertOnly]

theorem gtail_inertOnly (env : Env) (h : Handled) (d : Data) (kids : List RTree) (t : RTree) :
    gtail env h.inertOnly { d with attrs := d.attrs.filter Meta.isInert } (RTree.inertOnlyList kids)
        t.inertOnly
      = RTree.inertOnly <$> gtail env h d kids t := by
  simp only [gtail]
  cases d.edge.tail with
  | none => simp
  | some tk =>
    simp only [callee_inertOnly, rear_inertOnly, start_inertOnly, Handled.inertOnly]
    split
    · simp
    · split
      · simp only [map_bind]
        congr 1
        funext o
        cases o with
        | none => simp
        | some hk => simp [addMark_inertOnly, RTree.inertOnly, RTree.inertOnlyMarks]
      · simp

mutual
theorem gwalk_inertOnly (env : Env) (ctx : Ctx) : ∀ t : RTree,
    gwalk env ctx t.inertOnly = RTree.inertOnly <$> gwalk env ctx t
  | .mk d ms kids => by
    have hk := fun c => gwalkList_inertOnly env c kids
    have hb := built_inertOnly (.mk d ms kids)
    simp only [RTree.inertOnly] at hb ⊢
    simp only [gwalk, hb]
    split
    · split
      · rfl
      · have hh := handle_inertOnly env d (d.edge.enter ctx)
        rw [hh]
        cases d.handle env (d.edge.enter ctx) with
        | error e => rfl
        | ok h =>
          simp only [Except.map, W.lift_ok, pure_bind, map_bind]
          have e1 : h.inertOnly.ctx = h.ctx := rfl
          have e2 : ({ d with attrs := d.attrs.filter Meta.isInert } : Data).opens h.ctx
            = d.opens h.ctx := rfl
          rw [e1, e2]
          have e3 : gopen (d.opens h.ctx) (RTree.inertOnlyList kids)
              (gwalkList env h.ctx (RTree.inertOnlyList kids))
              = RTree.inertOnlyList <$> gopen (d.opens h.ctx) kids (gwalkList env h.ctx kids) := by
            simp only [gopen, hk]
            split <;> simp
          rw [e3, bind_map_left]
          congr 1
          funext kids'
          rw [gtarget_inertOnly, bind_map_left]
          congr 1
          funext t
          rw [gtail_inertOnly]
    · simp [RTree.inertOnly]
theorem gwalkList_inertOnly (env : Env) (ctx : Ctx) : ∀ ts : List RTree,
    gwalkList env ctx (RTree.inertOnlyList ts) = RTree.inertOnlyList <$> gwalkList env ctx ts
  | [] => by simp [RTree.inertOnlyList, gwalkList]
  | t :: ts => by
    have h1 := gwalk_inertOnly env ctx t
    have h2 := gwalkList_inertOnly env ctx ts
    simp [RTree.inertOnlyList, gwalkList, h1, h2]
end

end Hooq
