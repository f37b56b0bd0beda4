import Verif.Spec.Expand

/-!
# Comparing two expansions of an item
-/

namespace Hooq

/-- The first flavor hooks no more than the second: it has fewer targets, names and types, ignores more names, and
looks into macros only if the second does.  Methods and bindings do not matter. -/
structure Settings.Within (a b : Settings) : Prop where
  targets : ∀ k, a.targets.has k = true → b.targets.has k = true
  tails : a.tailIdents ⊆ b.tailIdents
  ignored : b.ignoreIdents ⊆ a.ignoreIdents
  types : a.resultTypes ⊆ b.resultTypes
  macros : a.hookInMacros = true → b.hookInMacros = true

/-- There is a hook of kind `k` on the expression at position `p` of an expanded item. -/
def Item.HookOn (i : Item) (p : List Nat) (k : Kind) : Prop :=
  ∃ n, i.tree.sub p = some n ∧ ∃ m ∈ n.marks, m.1.kind = k

/-- There is a hook of kind `k` with the number `c` on the expression at position `p` of an expanded item. -/
def Item.Numbered (i : Item) (p : List Nat) (k : Kind) (c : Nat) : Prop :=
  ∃ n, i.tree.sub p = some n ∧ ∃ m ∈ n.marks, m.1.kind = k ∧ m.1.count = c

/-- No `?` of the item is taken away. -/
def Item.QuestionsStay (i : Item) : Prop := ∀ p n q, i.tree.sub p = some n → n.data.tag ≠ .question q true

/-- The attribute has a say in which places are hooked: it is an inert attribute, but sets more than a method or a
binding. -/
def Meta.decides : Attr → Bool
  | .path p => decide (p ∈ ["skip", "skip_all"].map hooqPath)
  | .list p _ => decide (p ∈ ["hook_targets", "tail_expr_idents", "ignore_tail_expr_idents", "result_types",
      "hook_in_macros"].map hooqPath)
  | .nv p _ => decide (p ∈ ["flavor", "hook_targets", "tail_expr_idents", "result_types", "hook_in_macros"].map hooqPath)

/-- Two nodes of the same sort, at the same place below their parents, with the same attributes that have a say in
which places are hooked.  Other attributes can be any, as can spans. -/
structure Data.Akin (d e : Data) : Prop where
  edge : d.edge = e.edge
  tag : d.tag = e.tag
  mode : d.mode = e.mode
  attrs : d.attrs.filter Meta.decides = e.attrs.filter Meta.decides

mutual
/-- Trees of the same form, of nodes that are alike. -/
def RTree.Akin : RTree → RTree → Prop
  | .mk d _ ks, .mk e _ ls => d.Akin e ∧ AkinList ks ls
/-- Lists of such trees. -/
def AkinList : List RTree → List RTree → Prop
  | [], [] => True
  | k :: ks, l :: ls => k.Akin l ∧ AkinList ks ls
  | _, _ => False
end

mutual
/-- Trees of the same form; attributes can be any, as can spans. -/
def RTree.SameForm : RTree → RTree → Prop
  | .mk d _ ks, .mk e _ ls => (d.edge = e.edge ∧ d.tag = e.tag ∧ d.mode = e.mode) ∧ SameForms ks ls
/-- Lists of such trees. -/
def SameForms : List RTree → List RTree → Prop
  | [], [] => True
  | k :: ks, l :: ls => k.SameForm l ∧ SameForms ks ls
  | _, _ => False
end

/-- The attributes that two trees have at position `q`, as far as they decide which places are hooked, are the same. -/
def RTree.AgreeAt (t t' : RTree) (q : List Nat) : Prop :=
  ∀ n m, t.sub q = some n → t'.sub q = some m → n.data.attrs.filter Meta.decides = m.data.attrs.filter Meta.decides

end Hooq
