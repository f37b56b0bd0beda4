import Mathlib.Data.Nat.Digits.Defs
import Verif.Spec.Position
import Verif.Spec.Walk
import Verif.Model.Render

/-!
# What a template expands to

A relation between a template and the emitted tokens, given the facts about the
target.
-/

namespace Hooq

/-- Replacement of `$x` by tokens related to `x` through `σ`, everything else kept.
A `$` at the very end of a token sequence vanishes. -/
inductive Subst (σ : String → List TT → Prop) : List TT → List TT → Prop
  | nil : Subst σ [] []
  | var {sp sp' : Span} {x : String} {o rest out : List TT} :
      σ x o → Subst σ rest out → Subst σ (.punct '$' sp :: .ident x sp' :: rest) (o ++ out)
  | group {d : Delim} {ts ts' rest out : List TT} {sp : Span} :
      Subst σ ts ts' → Subst σ rest out →
      Subst σ (.group d ts sp :: rest) (.group d ts' .callSite :: out)
  | tok {t : TT} {rest out : List TT} :
      (∀ sp, t ≠ .punct '$' sp) → (∀ d ts sp, t ≠ .group d ts sp) → Subst σ rest out →
      Subst σ (t :: rest) (t :: out)
  | lastDollar {sp : Span} : Subst σ [.punct '$' sp] []

/-- The documented meta variables and their aliases. -/
def metaVarNames : List (MetaVar × List String) :=
  [(.line, ["line"]), (.column, ["column", "col"]), (.path, ["path"]), (.file, ["file"]),
   (.expr, ["expr"]), (.source, ["source"]), (.count, ["count", "nth"]),
   (.fnName, ["fn_name", "fnname"]), (.fnSig, ["fn_sig", "fnsig"]), (.soFar, ["so_far", "sofar"]),
   (.bindings, ["bindings", "vars"]), (.hooqMeta, ["hooq_meta", "hooqmeta"])]

/-- `x` is a name of the meta variable. -/
def MetaVar.Named (v : MetaVar) (x : String) : Prop := ∃ l, (v, l) ∈ metaVarNames ∧ x ∈ l

/-- `file` is the part of `path` after the last `/`. -/
def IsFileOf (path file : String) : Prop :=
  '/' ∉ file.toList ∧ (path = file ∨ ∃ dir, path = dir ++ "/" ++ file)

/-- English ordinal suffix, from the decimal digits, least significant first. -/
def ordinalOf : List Nat → String
  | _ :: 1 :: _ => "th"
  | 1 :: _ => "st"
  | 2 :: _ => "nd"
  | 3 :: _ => "rd"
  | _ => "th"

/-- `1st ?`, `2nd return`, `3rd tail expr`, ... -/
def countSpec (n : Nat) (k : Kind) : String :=
  toString n ++ ordinalOf (Nat.digits 10 n) ++ " " ++
    (match k with | .question => "?" | .ret => "return" | .tail => "tail expr")

/-- `l` lists the bindings in strictly increasing order of keys, each once. -/
structure Listing (b : String → Option Value) (l : List (String × Value)) : Prop where
  sorted : l.Pairwise fun x y => x.1 < y.1
  exact : ∀ k v, (k, v) ∈ l ↔ b k = some v

/-- The facts about a target that its hook may refer to. -/
structure Site where
  span : Span
  kind : Kind
  count : Nat
  fnName : String
  fnSig : String
  binding : String → Option Value

/-- What `$x` stands for. -/
inductive VarText (v : Site) (soFar : List TT → Prop) (x : String) : List TT → Prop
  | line : MetaVar.Named .line x → VarText v soFar x [.lit (.usize v.span.line) .callSite]
  | column : MetaVar.Named .column x → VarText v soFar x [.lit (.usize v.span.col) .callSite]
  | path : MetaVar.Named .path x → VarText v soFar x [.lit (.str v.span.file) .callSite]
  | file {f : String} : MetaVar.Named .file x → IsFileOf v.span.file f →
      VarText v soFar x [.lit (.str f) .callSite]
  | expr : MetaVar.Named .expr x → VarText v soFar x [.exprHole .callSite]
  | source : MetaVar.Named .source x → VarText v soFar x [.sourceHole .callSite]
  | count : MetaVar.Named .count x → VarText v soFar x [.lit (.str (countSpec v.count v.kind)) .callSite]
  | fnName : MetaVar.Named .fnName x → VarText v soFar x [.lit (.str v.fnName) .callSite]
  | fnSig : MetaVar.Named .fnSig x → VarText v soFar x [.lit (.str v.fnSig) .callSite]
  | soFar {o : List TT} : MetaVar.Named .soFar x → soFar o → VarText v soFar x o
  | bindings {l : List (String × Value)} : MetaVar.Named .bindings x → Listing v.binding l →
      VarText v soFar x [.bindingsHole l .callSite]
  | hooqMeta {l : List (String × Value)} {f : String} : MetaVar.Named .hooqMeta x →
      Listing v.binding l → IsFileOf v.span.file f →
      VarText v soFar x [.metaHole { line := v.span.line, col := v.span.col, path := v.span.file,
                                     file := f, count := countSpec v.count v.kind,
                                     bindings := l } .callSite]
  | binding {b : Value} : (∀ m, ¬ MetaVar.Named m x) → v.binding x = some b →
      VarText v soFar x [.valueHole b .callSite]

/-- Expansion of the first method of the list; `$so_far` is the expansion of the
rest. -/
def StackText (v : Site) : List Method → List TT → Prop
  | [], _ => False
  | m :: rest, out => Subst (VarText v (StackText v rest)) m.template out

/-- The facts about a target at a position. -/
def siteAt (env : Env) (s : Settings) (up : List Data) (kind : Kind) (span : Span) (count : Nat) :
    Site where
  span := span
  kind := kind
  count := count
  fnName := fnNameAt up
  fnSig := fnSigAt up
  binding := fun k => bindingAt env s k up

/-- `hk` is the hook that the method in force at the position makes, and the expression with it can be parsed. -/
structure IsHook (env : Env) (s : Settings) (up : List Data) (k : Kind) (sp : Span) (n : Nat)
    (hk : HookData) : Prop where
  kind : hk.kind = k
  span : hk.span = sp
  count : hk.count = n
  mode : hk.mode = (methodAt env s up).mode
  exc : hk.exc = (methodAt env s up).exc
  toks : ∃ out, StackText (siteAt env s up k sp n) (methodStack env s up) out ∧
    hk.toks = (match methodAt env s up with
      | .insert dot _ _ => [.punct '.' dot]
      | .replace _ _ => []) ++ out.map (TT.setSpan sp)
  reads : match hk.mode with
    | .insert => ∃ re, env.insertRear hk.toks = some re
    | .replace => ∃ rear, env.replaceShape rear hk.toks = some hk.shape

/-- Which target a hook on a node belongs to: the node itself as a trailing
expression, or the enclosing `?` or `return` whose operand the node is.  The hook is
the one that the settings in force at the target make, and the target is neither
skipped nor disabled. -/
def HookFact (env : Env) (s : Settings) (up : List Data) (n' : RTree) (hk : HookData) : Prop :=
  match up, hk.kind with
  | d :: _, .tail => d.edge.tail ≠ none ∧ hookedAt env s up .tail = true ∧
      ∃ c, IsHook env s up .tail n'.bare.start c hk
  | _ :: d :: rest, .question => ∃ q b c, d.tag = .question q b ∧
      hookedAt env s (d :: rest) .question = true ∧ IsHook env s (d :: rest) .question q c hk
  | _ :: d :: rest, .ret => ∃ c, d.tag = .ret ∧
      hookedAt env s (d :: rest) .ret = true ∧ IsHook env s (d :: rest) .ret d.span c hk
  | _, _ => False

end Hooq
