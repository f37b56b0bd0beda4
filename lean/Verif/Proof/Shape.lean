import Verif.Spec.Walk

/-!
# Well-formed trees

In the view of code, a `?` has exactly one child and a `return` at most one, and
these hang below plain edges.
-/

namespace Hooq

/-- Local condition on a node. -/
def nodeOk (d : Data) (kids : List RTree) : Prop :=
  match d.tag with
  | .question _ _ => (∃ k, kids = [k] ∧ k.data.edge = {}) ∧ d.rear = .closed
  | .ret => kids = [] ∨ ∃ k, kids = [k] ∧ k.data.edge = {}
  | .call => ∃ k ks, kids = k :: ks ∧ k.data.edge = {}
  | _ => True

mutual
/-- Every node satisfies the local condition. -/
def RTree.WF : RTree → Prop
  | .mk d _ kids => nodeOk d kids ∧ WFList kids
/-- Every tree in the list is well-formed. -/
def WFList : List RTree → Prop
  | [] => True
  | t :: ts => t.WF ∧ WFList ts
end

theorem WFList_append (a b : List RTree) : WFList (a ++ b) ↔ WFList a ∧ WFList b := by
  induction a with
  | nil => simp [WFList]
  | cons x a ih => simp [WFList, ih, and_assoc]

theorem addMark_WF (t : RTree) (m : HookData × RTree) : (t.addMark m).WF ↔ t.WF := by
  cases t; simp [RTree.addMark, RTree.WF]

theorem WFList_get {ks : List RTree} (h : WFList ks) {i : Nat} {k : RTree} (hk : ks[i]? = some k) :
    k.WF := by
  induction ks generalizing i with
  | nil => simp at hk
  | cons x ks ih =>
    simp only [WFList] at h
    cases i with
    | zero => simp at hk; subst hk; exact h.1
    | succ i => exact ih h.2 (by simpa using hk)

theorem WF_sub {t : RTree} (h : t.WF) {p : List Nat} {n : RTree} (hs : t.sub p = some n) : n.WF := by
  induction p generalizing t with
  | nil => cases t; simp [RTree.sub] at hs; subst hs; exact h
  | cons i p ih =>
    obtain ⟨d, ms, ks⟩ := t
    simp only [RTree.sub] at hs
    split at hs
    · rename_i k hk
      exact ih (WFList_get h.2 hk) hs
    · simp at hs

theorem addMark_edge (t : RTree) (m : HookData × RTree) :
    (t.addMark m).data.edge = t.data.edge := by cases t; rfl

mutual
theorem viewE_dataEdge (ed : Edge) : ∀ e : Expr, (viewE ed e).data.edge = ed
  | .mk attrs sp k => by simp only [viewE]; exact viewK_dataEdge ed attrs sp k
theorem viewK_dataEdge (ed : Edge) (attrs : List Attr) (sp : Span) :
    ∀ k : ExprKind, (viewK ed attrs sp k).data.edge = ed
  | .hooked hk arg src => by
    simp only [viewK]
    split
    · rfl
    · rw [addMark_edge, viewE_dataEdge ed arg]
  | .array _ | .assign _ _ | .async _ | .await _ | .binary _ _ _ | .block _ _ | .break_ _ _
  | .call _ _ | .cast _ _ | .closure _ _ | .const_ _ | .continue_ _ | .field _ _ | .forLoop _ _ _
  | .group _ | .if_ _ _ _ | .index _ _ | .infer | .let_ _ _ | .lit _ | .loop _ _ | .mac _
  | .match_ _ _ | .methodCall _ _ _ | .paren _ | .path _ | .range _ _ _ | .rawAddr _
  | .reference _ | .repeat_ _ _ | .ret _ | .struct_ _ _ _ | .try_ _ _ | .tryBlock _ | .tuple _
  | .unary _ _ | .unsafe_ _ | .verbatim _ | .while_ _ _ _ | .yield_ _ => by
    simp only [viewK, hnode, onode, RTree.data]
end

mutual

theorem wfE (ed : Edge) : ∀ e : Expr, (viewE ed e).WF
  | .mk attrs sp k => by simp only [viewE]; exact wfK ed attrs sp k

theorem wfK (ed : Edge) (attrs : List Attr) (sp : Span) : ∀ k : ExprKind, (viewK ed attrs sp k).WF
  | .try_ e q => by
    have h1 := wfE {} e
    simp [viewK, hnode, RTree.WF, WFList, nodeOk, h1, viewE_dataEdge]
  | .ret (some e) => by
    have h1 := wfE {} e
    simp [viewK, viewO, hnode, RTree.WF, WFList, nodeOk, h1, viewE_dataEdge]
  | .ret none => by simp [viewK, viewO, hnode, RTree.WF, WFList, nodeOk]
  | .array es | .tuple es => by
    have h1 := wfEs es
    simp [viewK, hnode, RTree.WF, nodeOk, h1]
  | .assign l r => by
    have h1 := wfE { visit := false } l
    have h2 := wfE {} r
    simp [viewK, hnode, RTree.WF, WFList, nodeOk, h1, h2]
  | .async b | .block _ b | .const_ b | .loop _ b | .tryBlock b | .unsafe_ b => by
    have h1 := wfStmts scopeEdge .blockTail b
    simp [viewK, hnode, RTree.WF, nodeOk, h1]
  | .await e | .cast e _ | .field e _ | .group e | .let_ _ e | .paren e | .rawAddr e
  | .reference e | .unary _ e => by
    have h1 := wfE {} e
    simp [viewK, hnode, RTree.WF, WFList, nodeOk, h1]
  | .binary l _ r | .index l r | .repeat_ l r => by
    have h1 := wfE {} l
    have h2 := wfE {} r
    simp [viewK, hnode, RTree.WF, WFList, nodeOk, h1, h2]
  | .break_ _ v | .yield_ v => by
    have h1 := wfO {} v
    simp [viewK, hnode, RTree.WF, nodeOk, h1]
  | .call f args | .methodCall f _ args => by
    have h1 := wfE {} f
    have h2 := wfEs args
    simp [viewK, hnode, RTree.WF, WFList, nodeOk, h1, h2, viewE_dataEdge]
  | .closure sig body => by
    have h1 := wfClosureBody { fn := some (.closure sig) } body
    simp [viewK, hnode, RTree.WF, WFList, nodeOk, h1]
  | .forLoop _ e b | .while_ _ e b => by
    have h1 := wfE {} e
    have h2 := wfStmts scopeEdge .blockTail b
    simp [viewK, hnode, RTree.WF, WFList, nodeOk, h1, h2]
  | .if_ c t e => by
    have h1 := wfE {} c
    have h2 := wfStmts scopeEdge .blockTail t
    have h3 := wfO scopeEdge e
    simp [viewK, hnode, RTree.WF, WFList, WFList_append, nodeOk, h1, h2, h3]
  | .match_ e arms => by
    have h1 := wfE {} e
    have h2 := wfArms arms
    simp [viewK, hnode, RTree.WF, WFList, nodeOk, h1, h2]
  | .range s _ t => by
    have h1 := wfO {} s
    have h2 := wfO {} t
    simp [viewK, hnode, RTree.WF, WFList_append, nodeOk, h1, h2]
  | .struct_ _ fs r => by
    have h1 := wfFields fs
    have h2 := wfO {} r
    simp [viewK, hnode, RTree.WF, WFList_append, nodeOk, h1, h2]
  | .mac (.mk _ _ b) => by
    have h1 := wfMacBody b
    simp [viewK, viewMac, hnode, RTree.WF, nodeOk, h1]
  | .continue_ _ | .infer | .lit _ | .path _ | .verbatim _ => by
    simp [viewK, onode, RTree.WF, WFList, nodeOk]
  | .hooked hk arg src => by
    have h1 := fun ed => wfE ed arg
    simp only [viewK]
    split
    · simp [hnode, RTree.WF, WFList, nodeOk, addMark_WF, addMark_edge, viewE_dataEdge, h1]
    · rw [addMark_WF]; exact h1 ed

theorem wfClosureBody (ed : Edge) : ∀ e : Expr, (viewClosureBody ed e).WF
  | .mk attrs sp k => by
    have h1 := fun ed => wfK ed attrs sp k
    have h2 := wfClosureBlock ed attrs sp k
    simp only [viewClosureBody]
    split
    · exact h2
    · exact h1 _

theorem wfClosureBlock (ed : Edge) (attrs : List Attr) (sp : Span) :
    ∀ k : ExprKind, (viewClosureBlock ed attrs sp k).WF
  | .block _ b => by
    have h1 := wfStmts scopeEdge .fnTail b
    simp [viewClosureBlock, hnode, RTree.WF, nodeOk, h1]
  | .array _ | .assign _ _ | .async _ | .await _ | .binary _ _ _ | .break_ _ _
  | .call _ _ | .cast _ _ | .closure _ _ | .const_ _ | .continue_ _ | .field _ _ | .forLoop _ _ _
  | .group _ | .if_ _ _ _ | .index _ _ | .infer | .let_ _ _ | .lit _ | .loop _ _ | .mac _
  | .match_ _ _ | .methodCall _ _ _ | .paren _ | .path _ | .range _ _ _ | .rawAddr _
  | .reference _ | .repeat_ _ _ | .ret _ | .struct_ _ _ _ | .try_ _ _ | .tryBlock _ | .tuple _
  | .unary _ _ | .unsafe_ _ | .verbatim _ | .while_ _ _ _ | .yield_ _ | .hooked _ _ _ => by
    simp [viewClosureBlock, onode, RTree.WF, WFList, nodeOk]

theorem wfArmBody : ∀ e : Expr, (viewArmBody e).WF
  | .mk attrs sp k => by
    have h1 := fun ed => wfK ed attrs sp k
    simp only [viewArmBody]
    split <;> exact h1 _

theorem wfEs : ∀ es : List Expr, WFList (viewEs es)
  | [] => by simp [viewEs, WFList]
  | e :: es => by
    have h1 := wfE {} e
    have h2 := wfEs es
    simp [viewEs, WFList, h1, h2]

theorem wfO (ed : Edge) : ∀ o : Option Expr, WFList (viewO ed o)
  | none => by simp [viewO, WFList]
  | some e => by
    have h1 := wfE ed e
    simp [viewO, WFList, h1]

theorem wfFields : ∀ fs : List FieldVal, WFList (viewFields fs)
  | [] => by simp [viewFields, WFList]
  | f :: fs => by
    have h1 := wfField f
    have h2 := wfFields fs
    simp [viewFields, WFList, h1, h2]

theorem wfField : ∀ f : FieldVal, (viewField f).WF
  | .mk _ _ e => by
    have h1 := wfE {} e
    simp [viewField, hnode, RTree.WF, WFList, nodeOk, h1]

theorem wfArms : ∀ as : List Arm, WFList (viewArms as)
  | [] => by simp [viewArms, WFList]
  | a :: rest => by
    have h1 := wfArm a
    have h2 := wfArms rest
    simp [viewArms, WFList, h1, h2]

theorem wfArm : ∀ a : Arm, (viewArm a).WF
  | .mk _ _ g body => by
    have h1 := wfO {} g
    have h2 := wfArmBody body
    simp [viewArm, onode, RTree.WF, WFList, WFList_append, nodeOk, h1, h2]

theorem wfStmts (ed : Edge) (tk : TailKind) : ∀ ss : List Stmt, WFList (viewStmts ed tk ss)
  | [] => by simp [viewStmts, WFList]
  | s :: rest => by
    have h1 := fun tk => wfStmt ed tk s
    have h2 := wfStmts ed tk rest
    simp only [viewStmts, WFList]
    exact ⟨h1 _, h2⟩

theorem wfStmt (ed : Edge) (tk : Option TailKind) : ∀ s : Stmt, (viewStmt ed tk s).WF
  | .localInit _ _ e dv => by
    have h1 := wfE {} e
    have h2 := wfO {} dv
    simp [viewStmt, hnode, RTree.WF, WFList, nodeOk, h1, h2]
  | .localDecl _ _ => by simp [viewStmt, onode, RTree.WF, WFList, nodeOk]
  | .item i => by
    have h1 := wfItem ed i
    simpa [viewStmt] using h1
  | .expr e semi => by
    have h1 := fun ed => wfE ed e
    simp only [viewStmt]; exact h1 _
  | .mac _ (.mk _ _ b) _ => by
    have h1 := wfMacBody b
    simp [viewStmt, viewMac, hnode, RTree.WF, nodeOk, h1]

theorem wfMacBody : ∀ b : MacBody, WFList (viewMacBody b)
  | .raw _ => by simp [viewMacBody, WFList]
  | .parsed evs => by
    have h1 := wfEvs evs
    simpa [viewMacBody] using h1

theorem wfEvs : ∀ vs : List Ev, WFList (viewEvs vs)
  | [] => by simp [viewEvs, WFList]
  | v :: vs => by
    have h1 := wfEv v
    have h2 := wfEvs vs
    simp [viewEvs, WFList, h1, h2]

theorem wfEv : ∀ v : Ev, (viewEv v).WF
  | .file _ items _ => by
    have h1 := wfItems items
    simp [viewEv, onode, RTree.WF, nodeOk, h1]
  | .item i _ => by
    have h1 := wfItem {} i
    simpa [viewEv] using h1
  | .expr e _ => by
    have h1 := wfE {} e
    simpa [viewEv] using h1
  | .stmt s _ => by
    have h1 := wfStmt {} none s
    simpa [viewEv] using h1

theorem wfItem (ed : Edge) : ∀ i : Item, (viewItem ed i).WF
  | .fn _ sig body => by
    have h1 := wfStmts { scope := true, fn := some (.fn sig) } .fnTail body
    simp [viewItem, hnode, RTree.WF, nodeOk, h1]
  | .impl_ _ _ items => by
    have h1 := wfImplItems items
    simp [viewItem, hnode, RTree.WF, nodeOk, h1]
  | .mod_ _ _ items => by
    have h1 := wfItems items
    simp [viewItem, hnode, RTree.WF, nodeOk, h1]
  | .trait_ _ _ items => by
    have h1 := wfTraitItems items
    simp [viewItem, hnode, RTree.WF, nodeOk, h1]
  | .const_ _ _ e | .static_ _ _ e => by
    have h1 := wfE {} e
    simp [viewItem, hnode, RTree.WF, WFList, nodeOk, h1]
  | .mac _ (.mk _ _ b) => by
    have h1 := wfMacBody b
    simp [viewItem, viewMac, hnode, RTree.WF, nodeOk, h1]
  | .macroRules _ _ _ | .other _ _ => by simp [viewItem, onode, RTree.WF, WFList, nodeOk]

theorem wfItems : ∀ is : List Item, WFList (viewItems is)
  | [] => by simp [viewItems, WFList]
  | i :: is => by
    have h1 := wfItem {} i
    have h2 := wfItems is
    simp [viewItems, WFList, h1, h2]

theorem wfImplItems : ∀ is : List ImplItem, WFList (viewImplItems is)
  | [] => by simp [viewImplItems, WFList]
  | i :: is => by
    have h1 := wfImplItem i
    have h2 := wfImplItems is
    simp [viewImplItems, WFList, h1, h2]

theorem wfImplItem : ∀ i : ImplItem, (viewImplItem i).WF
  | .fn _ sig body => by
    have h1 := wfStmts { scope := true, fn := some (.fn sig) } .fnTail body
    simp [viewImplItem, hnode, RTree.WF, nodeOk, h1]
  | .const_ _ _ e => by
    have h1 := wfE {} e
    simp [viewImplItem, hnode, RTree.WF, WFList, nodeOk, h1]
  | .mac _ (.mk _ _ b) => by
    have h1 := wfMacBody b
    simp [viewImplItem, viewMac, hnode, RTree.WF, nodeOk, h1]
  | .other _ _ => by simp [viewImplItem, onode, RTree.WF, WFList, nodeOk]

theorem wfTraitItems : ∀ is : List TraitItem, WFList (viewTraitItems is)
  | [] => by simp [viewTraitItems, WFList]
  | i :: is => by
    have h1 := wfTraitItem i
    have h2 := wfTraitItems is
    simp [viewTraitItems, WFList, h1, h2]

theorem wfTraitItem : ∀ i : TraitItem, (viewTraitItem i).WF
  | .fn _ sig body => by
    have h1 := wfStmts { scope := true, fn := some (.fn sig) } .fnTail body
    simp [viewTraitItem, hnode, RTree.WF, nodeOk, h1]
  | .const_ _ _ e => by
    have h1 := wfE {} e
    simp [viewTraitItem, hnode, RTree.WF, WFList, nodeOk, h1]
  | .mac _ (.mk _ _ b) => by
    have h1 := wfMacBody b
    simp [viewTraitItem, viewMac, hnode, RTree.WF, nodeOk, h1]
  | .other _ _ => by simp [viewTraitItem, onode, RTree.WF, WFList, nodeOk]

end

end Hooq
