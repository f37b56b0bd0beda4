import Verif.Model.Context

/-!
# Rendering of a hook

/repo/hooq-macros/src/impls/method/render/mod.rs and meta_vars.rs.
-/

namespace Hooq

/-- `MetaVars`, /repo/hooq-macros/src/impls/method/render/meta_vars.rs:4-18. -/
inductive MetaVar
  | line | column | path | file | expr | source | count | fnName | fnSig | soFar
  | bindings | hooqMeta
deriving DecidableEq, Repr, Inhabited

/-- `MetaVars::from_str`, /repo/hooq-macros/src/impls/method/render/meta_vars.rs:35-55. -/
def MetaVar.ofString (s : String) : Option MetaVar :=
  if s = "line" then some .line
  else if s = "column" ∨ s = "col" then some .column
  else if s = "path" then some .path
  else if s = "file" then some .file
  else if s = "expr" then some .expr
  else if s = "source" then some .source
  else if s = "nth" ∨ s = "count" then some .count
  else if s = "fnname" ∨ s = "fn_name" then some .fnName
  else if s = "fnsig" ∨ s = "fn_sig" then some .fnSig
  else if s = "sofar" ∨ s = "so_far" then some .soFar
  else if s = "bindings" ∨ s = "vars" then some .bindings
  else if s = "hooqmeta" ∨ s = "hooq_meta" then some .hooqMeta
  else none

/-- `path.rsplit('/').next()`: the part after the last `/`.
For /repo/hooq-macros/src/impls/method/render/mod.rs:16. -/
def lastComponent (cs : List Char) : List Char :=
  (cs.reverse.takeWhile (· ≠ '/')).reverse

/-- `get_file_name`, /repo/hooq-macros/src/impls/method/render/mod.rs:14-19. -/
def fileName (sp : Span) : String := String.ofList (lastComponent sp.file.toList)

/-- Suffix computation of `get_count`,
/repo/hooq-macros/src/impls/method/render/mod.rs:161-169. -/
def ordinalSuffix (n : Nat) : String :=
  let m := n % 100
  if 11 ≤ m ∧ m ≤ 13 then "th"
  else
    let d := m % 10
    if d = 1 then "st"
    else if d = 2 then "nd"
    else if d = 3 then "rd"
    else "th"

/-- `get_count`, /repo/hooq-macros/src/impls/method/render/mod.rs:158-172. -/
def countText (n : Nat) (k : Kind) : String :=
  toString n ++ ordinalSuffix n ++ " " ++ k.display

/-- Insertion into a list sorted by key.
For /repo/hooq-macros/src/impls/inert_attr/context.rs:388-404. -/
def insertKey (x : String × Value) : List (String × Value) → List (String × Value)
  | [] => [x]
  | y :: l => if x.1 ≤ y.1 then x :: y :: l else y :: insertKey x l

/-- `sort_by` on keys; insertion sort stands for the library's stable sort (keys of
a hash map are distinct, so all sorts agree).
For /repo/hooq-macros/src/impls/inert_attr/context.rs:388-404. -/
def sortKeys : List (String × Value) → List (String × Value)
  | [] => []
  | x :: l => insertKey x (sortKeys l)

/-- `available_bindings`, /repo/hooq-macros/src/impls/inert_attr/context.rs:388-404. -/
def availableBindings (m : AMap Value) : List (String × Value) := sortKeys m

/-- What the expansion of a template reads: `HookInfo` without the ancestor chain,
plus the anchor span, the current count and the end of the operand
(/repo/hooq-macros/src/impls/inert_attr/context.rs:359-378). -/
structure RInfo where
  ctx : Ctx
  kind : Kind
  count : Nat
  span : Span
  rear : Rear := .whole

/-- `get_fn_name`, /repo/hooq-macros/src/impls/method/render/mod.rs:174-178. -/
def RInfo.fnName (r : RInfo) : String :=
  match r.ctx.fnInfo.val with
  | some f => f.name
  | none => "<unknown>"

/-- `get_fn_sig`, /repo/hooq-macros/src/impls/method/render/mod.rs:180-184. -/
def RInfo.fnSig (r : RInfo) : String :=
  match r.ctx.fnInfo.val with
  | some f => f.sigText
  | none => "<unknown>"

/-- `meta_vars2token_stream`,
/repo/hooq-macros/src/impls/method/render/mod.rs:213-345.  `soFar` is the result of
expanding the overridden ancestor (computed by `soFarOf` below), `sp` the span of the
variable's name. -/
def metaVarTokens (r : RInfo) (soFar : Span → Except Err (List TT)) (name : String)
    (sp : Span) : Except Err (List TT) :=
  match MetaVar.ofString name with
  | some .line => .ok [.lit (.usize r.span.line) .callSite]
  | some .column => .ok [.lit (.usize r.span.col) .callSite]
  | some .path => .ok [.lit (.str r.span.file) .callSite]
  | some .file => .ok [.lit (.str (fileName r.span)) .callSite]
  | some .expr => .ok [.exprHole .callSite]
  | some .source => .ok [.sourceHole .callSite]
  | some .count => .ok [.lit (.str (countText r.count r.kind)) .callSite]
  | some .fnName => .ok [.lit (.str r.fnName) .callSite]
  | some .fnSig => .ok [.lit (.str r.fnSig) .callSite]
  | some .soFar => soFar sp
  | some .bindings => .ok [.bindingsHole (availableBindings r.ctx.bindings) .callSite]
  | some .hooqMeta => .ok [.metaHole
      { line := r.span.line, col := r.span.col, path := r.span.file, file := fileName r.span,
        count := countText r.count r.kind,
        bindings := availableBindings r.ctx.bindings } .callSite]
  | none => match r.ctx.bindings.get? name with
    | some v => .ok [.valueHole v .callSite]
    | none => .error (.unknownVar name ((availableBindings r.ctx.bindings).map (·.1)) sp)

mutual
/-- One token of the loop of `expand_meta_vars` that is not directly after `$`,
/repo/hooq-macros/src/impls/method/render/mod.rs:99-153.  A rebuilt group has the
call-site span (138). -/
def expandTT (r : RInfo) (soFar : Span → Except Err (List TT)) : TT → Except Err TT
  | .group d ts _ => do
    let ts ← expandList r soFar false ts
    .ok (.group d ts .callSite)
  | t => .ok t
/-- The loop of `expand_meta_vars`,
/repo/hooq-macros/src/impls/method/render/mod.rs:96-155; the flag is
`next_is_replace_target`. -/
def expandList (r : RInfo) (soFar : Span → Except Err (List TT)) (flag : Bool) :
    List TT → Except Err (List TT)
  | [] => .ok []
  | t :: rest =>
    if flag then
      match t with
      | .ident s sp => do
        let h ← metaVarTokens r soFar s sp
        let l ← expandList r soFar false rest
        .ok (h ++ l)
      | t => .error (.afterDollar t.span)
    else if t.isPunct '$' then expandList r soFar true rest
    else do
      let h ← expandTT r soFar t
      let l ← expandList r soFar false rest
      .ok (h :: l)
end

/-- Expansion of the overridden ancestor for `$so_far`,
/repo/hooq-macros/src/impls/method/render/mod.rs:278-295.  The list is the chain of
overridden methods, nearest first; the ancestor is expanded with its own ancestor
as `$so_far`. -/
def soFarOf (r : RInfo) : List Method → Span → Except Err (List TT)
  | [], sp => .error (.noSoFar sp)
  | m :: rest, _ => expandList r (soFarOf r rest) false m.template

/-- `expand_meta_vars` as called for the method in force,
/repo/hooq-macros/src/impls/method/render/mod.rs:45, 72. -/
def expandMethod (r : RInfo) : Except Err (List TT) :=
  expandList r (soFarOf r r.ctx.method.anc) false r.ctx.method.val.template

/-- `render_expr_with_method`,
/repo/hooq-macros/src/impls/method/render/mod.rs:22-87: the record of the hook that
is built around the target expression.  `spanned` is the `map`; `parse_quote!`
failing is a panic.  The tokens after the operand are the `.` with its own span and
the template with the anchor span.  Simplification: of the operand, only its rear
matters for re-parsing. -/
def render (env : Env) (r : RInfo) : Except Err HookData := do
  let ts ← expandMethod r
  let ts := ts.map (TT.setSpan r.span)
  match r.ctx.method.val with
  | .insert dot _ exc =>
    let ts := .punct '.' dot :: ts
    match r.rear, env.insertRear ts with
    | .stuck, _ => .error .panic
    | _, none => .error .panic
    | rear, some re =>
      .ok { kind := r.kind, mode := .insert, toks := ts, exc := exc,
            shape := .other (if re = .whole then rear else re),
            span := r.span, count := r.count }
  | .replace _ exc =>
    match env.replaceShape r.rear ts with
    | some sh =>
      .ok { kind := r.kind, mode := .replace, toks := ts, exc := exc, shape := sh,
            span := r.span, count := r.count }
    | none => .error .panic

end Hooq
