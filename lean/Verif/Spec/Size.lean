import Verif.Model.Spliced
import Verif.Spec.Presets

/-!
# How large code is

The size of code is the sum of the sizes of its nodes, of its attributes, and of the words of the
text that hooks put in.  The size of a node without its parts and that of an attribute are
arbitrary, but a node is not empty, and a `?` that was taken away is not larger than one that
was not.  What the walk never looks into (types, patterns, signatures, unparsed macro arguments)
belongs to the node it is written in.  Simplification: the size of a node depends on what kind of
node it is and where it is written only, so that all functions have headers of the same size.
-/

namespace Hooq

/-- The sizes of nodes, which do not count their parts, and of attributes. -/
structure Sizes where
  node : Tag → Span → Nat
  attr : Attr → Nat
  pos : ∀ t sp, 1 ≤ node t sp
  consumed : ∀ q b sp, node (.question q true) sp ≤ node (.question q b) sp

/-- The size of a node without its parts. -/
def Sizes.own (Z : Sizes) (d : Data) : Nat := Z.node d.tag d.span + (d.attrs.map Z.attr).sum

mutual
/-- The number of words of a token, where `n` is the size of `$expr` and `s` that of `$source`.  The
text in `$hooq_meta` counts as much as the source. -/
def TT.size (n s : Nat) : TT → Nat
  | .ident _ _ | .punct _ _ | .lit _ _ => 1
  | .group d ts _ => d.opening.length + textSize n s ts + d.closing.length
  | .exprHole _ => n
  | .sourceHole _ => s
  | .valueHole v _ => v.words.length
  | .bindingsHole l _ => (wordsOf (bindingsTokens l)).length
  | .metaHole m _ => (wordsOf (metaTokens "" m)).length + s
/-- The number of words of a text. -/
def textSize (n s : Nat) : List TT → Nat
  | [] => 0
  | t :: ts => t.size n s + textSize n s ts
end

/-- The size of a hooked expression, where `n` is the size of the expression and `s` that of the
source. -/
def HookData.size (hk : HookData) (n s : Nat) : Nat :=
  match hk.mode with
  | .insert => n + textSize n s hk.toks
  | .replace => textSize n s hk.toks

mutual
/-- The size of code. -/
def RTree.size (Z : Sizes) : RTree → Nat
  | .mk d ms ks => marksSize Z (Z.own d + sizeList Z ks) ms
/-- The size of parts. -/
def sizeList (Z : Sizes) : List RTree → Nat
  | [] => 0
  | k :: ks => k.size Z + sizeList Z ks
/-- The size with the hooks, where `n` is the size without. -/
def marksSize (Z : Sizes) (n : Nat) : List (HookData × RTree) → Nat
  | [] => n
  | m :: ms => marksSize Z (markSize Z n m) ms
/-- The size with a hook, where `n` is the size without. -/
def markSize (Z : Sizes) (n : Nat) : HookData × RTree → Nat
  | (hk, src) => hk.size n (src.size Z)
end

/-- The size of an item. -/
def Item.size (Z : Sizes) (i : Item) : Nat := i.tree.size Z

/-- The hook is put behind its operand, and has `K` words besides `c` copies of the source. -/
structure HookData.Small (K c : Nat) (hk : HookData) : Prop where
  mode : hk.mode = .insert
  text : ∀ n s, textSize n s hk.toks ≤ K + c * s

end Hooq
