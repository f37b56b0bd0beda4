import Verif.Conform.Read

/-!
# Printing expanded code

The other half of the stand-in for `syn` and `quote`: from the model's syntax trees back to
text.  What the model keeps as opaque text is printed as it was read.  Nothing here is used
in proofs.
-/

namespace Hooq.Conform

/-- The source file: tokens with positions. -/
structure Src where
  file : String
  toks : List RTok

def RTok.start : RTok → Nat × Nat
  | .ident _ l c _ _ | .punct _ l c | .lit _ l c _ _ | .group _ _ l c _ _ => (l, c)

/-- The tokens from a position to the end of its group. -/
partial def suffixAt (l c : Nat) : List RTok → Option (List RTok)
  | [] => none
  | t :: ts =>
    if t.start = (l, c) then some (t :: ts)
    else match t with
      | .group _ inner _ _ el ec =>
        if el < l || el = l && ec ≤ c then suffixAt l c ts
        else match suffixAt l c inner with
          | some r => some r
          | none => suffixAt l c ts
      | _ => suffixAt l c ts

mutual
partial def rText : RTok → String
  | .ident s _ _ _ _ => s
  | .punct c _ _ => String.singleton c
  | .lit t _ _ _ _ => t
  | .group d ts _ _ _ _ => openText d ++ rsText ts ++ closeText d
partial def rsText : List RTok → String
  | [] => ""
  | [t] => rText t
  | t :: u :: r =>
    (match t, u with
      | .punct _ _ _, .punct _ _ _ => rText t
      | .punct '\'' _ _, _ => rText t
      | _, _ => rText t ++ " ") ++ rsText (u :: r)
end

/-- Spelling of a path with generic arguments, taken from the source. -/
def pathSrc (src : Src) (sp : Span) (p : Path) : String :=
  if p.segs.any (·.hasArgs) then
    match suffixAt sp.line sp.col src.toks with
    | some rs =>
      let ts := rs.map (RTok.toTT src.file)
      let reader : P Unit := do
        if isOp "<" (← get) then
          let _ ← anyTok
          let _ ← angleArgs
          needOp "::"
        let _ ← genPath true
      match reader.run ts with
      | .ok (_, rest) => rsText (rs.take (rs.length - rest.length))
      | .error _ => pathText p
    | none => pathText p
  else pathText p

def metaText : Meta → String
  | .path p => pathText p
  | .list p ts => s!"{pathText p}({ttsText ts})"
  | .nv p v => s!"{pathText p} = {v.text}"

def attrsText (as : List Attr) : String := String.join (as.map fun a => s!"#[{metaText a}] ")

/-! ## Source excerpts -/

/-- Number of characters as `proc_macro` counts columns. -/
def litPTok (inMacro : Bool) (text : String) (l c ec : Nat) : PTok :=
  match inMacro, strValue text with
  | false, some v => .str v.toList text.toList l c ec
  | _, _ => .leaf text.toList l c ec

mutual
/-- Find the wanted tokens, in order, among those of the source. -/
partial def align (inMacro : Bool) (bang : Bool) : List RTok → List RTok → Option (List PTok)
  | [], _ => some []
  | _ :: _, [] => none
  | w :: ws, h :: hs =>
    match alignTok inMacro bang w h with
    | some t =>
      let bang' := match w with | .punct '!' _ _ => true | _ => false
      match align inMacro bang' ws hs with
      | some r => some (t :: r)
      | none => none
    | none => align inMacro bang (w :: ws) hs
partial def alignTok (inMacro bang : Bool) : RTok → RTok → Option PTok
  | .ident s _ _ _ _, .ident s' l c _ ec => if s = s' then some (.leaf s.toList l c ec) else none
  | .punct p _ _, .punct q l c => if p = q then some (.leaf [p] l c (c + 1)) else none
  | .lit t _ _ _ _, .lit t' l c _ ec =>
    if t = t' || (strValue t).isSome && strValue t = strValue t' then some (litPTok inMacro t' l c ec) else none
  | .group d ts _ _ _ _, .group d' ts' l c el ec =>
    if d = d' then
      match align (inMacro || bang) false ts ts' with
      | some r => some (.group d r l c el ec)
      | none => none
    else none
  | _, _ => none
end

def PTok.endLine : PTok → Nat
  | .leaf _ l _ _ => l
  | .str _ _ l _ _ => l
  | .group _ _ _ _ el _ => el

def sourcePExpr (src : Src) (text : String) (sp : Span) : Option PExpr :=
  match lexFile text, suffixAt sp.line sp.col src.toks with
  | .ok ws, some hs => (align false false ws hs).map fun ts =>
    { toks := ts, startLine := sp.line, endLine := (ts.getLast?.map PTok.endLine).getD sp.line }
  | _, _ => none

def spell (v : List Char) : List Char := (escapeStr (String.ofList v)).toList

/-- The literal that a helper macro applied to the source gives. -/
def helperLit (src : Src) (text : String) (sp : Span) (m : String) : Option String :=
  match sourcePExpr src text sp with
  | none => none
  | some pe =>
    let reader : OptReader PExpr := { lit := fun _ => .other, number := fun _ => false, expr := fun _ => some pe }
    let l :=
      if m = "excerpted_pretty_stringify" || m = "summary" then excerptMacro spell reader []
      else if m = "one_line_stringify" then oneLineMacro Char.isWhitespace spell reader []
      else if m = "pretty_stringify" then prettyMacro reader []
      else none
    l.map fun l => escapeStr (String.ofList l)

/-! ## Code -/

/-- A string whose spacing depends on the compiler's printer. -/
def looseStr (s : String) : String := escapeStr s

def valueCode (l : List (String × Value)) : String :=
  "::std::collections::HashMap::from([" ++ ", ".intercalate (l.map fun (k, v) =>
    s!"(::std::string::ToString::to_string({escapeStr k}), \{ let expr = ::std::string::ToString::to_string({looseStr v.text}); let value: ::std::rc::Rc<dyn ::std::any::Any> = ::std::rc::Rc::new({v.text}); ::hooq::BindingPayload \{ expr, value } })") ++ "])"

mutual

/-- Tokens of a hook with the holes filled. -/
partial def hookText (src : Src) (e s : String) (sp : Span) : List TT → String
  | [] => ""
  | .punct ':' a :: .punct ':' b :: .ident "hooq" _ :: .punct ':' _ :: .punct ':' _ ::
      .ident "source_excerpt_helpers" _ :: .punct ':' _ :: .punct ':' _ :: .ident m c ::
      .punct '!' d :: .group .paren [.sourceHole e'] f :: r
  | .punct ':' a :: .punct ':' b :: .ident "hooq" _ :: .punct ':' _ :: .punct ':' _ :: .ident m c ::
      .punct '!' d :: .group .paren [.sourceHole e'] f :: r =>
    hookText src e s sp (.punct ':' a :: .punct ':' b :: .ident m c :: .punct '!' d :: .group .paren [.sourceHole e'] f :: r)
  | .punct ':' _ :: .punct ':' _ :: .ident m _ :: .punct '!' _ :: .group .paren [.sourceHole _] _ :: r =>
    match helperLit src s sp m with
    | some l => s!" {l} {hookText src e s sp r}"
    | none => s!" ::{m}!({s}) {hookText src e s sp r}"
  | .ident m _ :: .punct '!' _ :: .group .paren [.sourceHole _] _ :: r =>
    match helperLit src s sp m with
    | some l => s!" {l} {hookText src e s sp r}"
    | none => s!" {m}!({s}) {hookText src e s sp r}"
  | t :: r =>
    let sep := match t, r with
      | .punct _ _, .punct _ _ :: _ => ""
      | .punct '\'' _, _ => ""
      | _, _ => " "
    hookTok src e s sp t ++ sep ++ hookText src e s sp r

partial def hookTok (src : Src) (e s : String) (sp : Span) : TT → String
  | .group d ts _ => openText d ++ hookText src e s sp ts ++ closeText d
  | .exprHole _ => e
  | .sourceHole _ => s
  | .bindingsHole l _ => valueCode l
  | .metaHole m _ =>
    s!"::hooq::HooqMeta \{ line: {m.line}usize, column: {m.col}usize, path: {escapeStr m.path}, file: {escapeStr m.file}, source_str: {looseStr s}, count: {escapeStr m.count}, bindings: {valueCode m.bindings} }"
  | t => ttText t

partial def exprText (src : Src) : Expr → String
  | .mk attrs sp k => attrsText attrs ++ kindText src sp k

partial def exprsText (src : Src) (l : List Expr) : String := ", ".intercalate (l.map (exprText src))

partial def optText (src : Src) : Option Expr → String
  | none => ""
  | some e => " " ++ exprText src e

partial def kindText (src : Src) (sp : Span) : ExprKind → String
  | .array l => s!"[{exprsText src l}]"
  | .assign l r => s!"{exprText src l} = {exprText src r}"
  | .async b =>
    let mv := match suffixAt sp.line sp.col src.toks with
      | some (.ident "async" _ _ _ _ :: .ident "move" _ _ _ _ :: _) => "move "
      | _ => ""
    s!"async {mv}{blockText src b}"
  | .await e => s!"{exprText src e}.await"
  | .binary l o r => s!"{exprText src l} {o} {exprText src r}"
  | .block lb b => s!"{lb} {blockText src b}"
  | .break_ l v => s!"break {l}{optText src v}"
  | .call f as => s!"{exprText src f}({exprsText src as})"
  | .cast e t => s!"{exprText src e} as {t}"
  | .closure sig b => String.ofList (sig.text.toList.take (sig.text.length - 2)) ++ exprText src b
  | .const_ b => s!"const {blockText src b}"
  | .continue_ l => s!"continue {l}"
  | .field e m => s!"{exprText src e}.{m}"
  | .forLoop h e b => s!"{h} {exprText src e} {blockText src b}"
  | .group e => exprText src e
  | .if_ c t e => s!"if {exprText src c} {blockText src t}" ++ (match e with
    | none => ""
    | some e => s!" else {exprText src e}")
  | .index e i => s!"{exprText src e}[{exprText src i}]"
  | .infer => "_"
  | .let_ p e => s!"let {p} = {exprText src e}"
  | .lit l => litText l
  | .loop l b => s!"{l} loop {blockText src b}"
  | .mac m => macText src m
  | .match_ e as => s!"match {exprText src e} \{ {String.join (as.map (armText src))} }"
  | .methodCall e n as => s!"{exprText src e}.{n}({exprsText src as})"
  | .paren e => s!"({exprText src e})"
  | .path p => pathSrc src sp p
  | .range s o t => s!"{optText src s} {o} {optText src t}"
  | .rawAddr e => s!"&raw const {exprText src e}"
  | .reference e => s!"&{exprText src e}"
  | .repeat_ e n => s!"[{exprText src e}; {exprText src n}]"
  | .ret v => s!"return{optText src v}"
  | .struct_ h fs r => s!"{h} \{ {String.join (fs.map (fieldText src))} {match r with | none => "" | some e => ".." ++ exprText src e} }"
  | .try_ e _ => s!"{exprText src e}?"
  | .tryBlock b => s!"try {blockText src b}"
  | .tuple l => s!"({exprsText src l}{if l.length = 1 then "," else ""})"
  | .unary o e => s!"{o} {exprText src e}"
  | .unsafe_ b => s!"unsafe {blockText src b}"
  | .verbatim ts => ttsText ts
  | .while_ l c b => s!"{l} while {exprText src c} {blockText src b}"
  | .yield_ v => s!"yield{optText src v}"
  | .hooked hk arg s =>
    let a := exprText src arg
    let t := hookText src a (exprText src s) s.start hk.toks
    match hk.mode with
    | .insert => a ++ t
    | .replace => t

partial def armText (src : Src) : Arm → String
  | .mk a p g b => s!"{attrsText a}{p}{match g with | none => "" | some g => " if " ++ exprText src g} => {exprText src b}, "

partial def fieldText (src : Src) : FieldVal → String
  | .mk a m e => s!"{attrsText a}{m} {exprText src e}, "

partial def macText (src : Src) : Mac → String
  | .mk p d b => s!"{pathText p}!{openText d}{macBodyText src b}{closeText d}"

partial def macBodyText (src : Src) : MacBody → String
  | .raw ts => ttsText ts
  | .parsed evs => String.join (evs.map (evText src))

partial def sepText : Sep → String
  | .none => " " | .comma => ", " | .semi => "; "

partial def evText (src : Src) : Ev → String
  | .file _ is s => String.join (is.map (itemText src)) ++ sepText s
  | .item i s => itemText src i ++ sepText s
  | .expr e s => exprText src e ++ sepText s
  | .stmt x s => stmtText src x ++ sepText s

partial def blockText (src : Src) (b : List Stmt) : String := "{ " ++ String.join (b.map (stmtText src)) ++ "}"

partial def stmtText (src : Src) : Stmt → String
  | .localInit a p e d => s!"{attrsText a}let {p} = {exprText src e}{match d with | none => "" | some d => " else " ++ exprText src d};\n"
  | .localDecl a p => s!"{attrsText a}let {p};\n"
  | .item i => itemText src i
  | .expr e semi => exprText src e ++ (if semi then ";\n" else "\n")
  | .mac a m semi => attrsText a ++ macText src m ++ (if semi then ";\n" else "\n")

partial def itemText (src : Src) : Item → String
  | .fn a s b => s!"{attrsText a}{s.text} {blockText src b}\n"
  | .impl_ a h is => s!"{attrsText a}{h} \{ {String.join (is.map (implText src))} }\n"
  | .mod_ a n is => s!"{attrsText a}mod {n} \{ {String.join (is.map (itemText src))} }\n"
  | .const_ a h e => s!"{attrsText a}{h} = {exprText src e};\n"
  | .static_ a h e => s!"{attrsText a}{h} = {exprText src e};\n"
  | .trait_ a h is => s!"{attrsText a}{h} \{ {String.join (is.map (traitText src))} }\n"
  | .mac a m => s!"{attrsText a}{macText src m}{match m with | .mk _ .brace _ => "" | _ => ";"}\n"
  | .macroRules a n (.mk _ d b) => s!"{attrsText a}macro_rules! {n} {openText d}{macBodyText src b}{closeText d}{if d = .brace then "" else ";"}\n"
  | .other a t => s!"{attrsText a}{t}\n"

partial def implText (src : Src) : ImplItem → String
  | .fn a s b => itemText src (.fn a s b)
  | .const_ a h e => itemText src (.const_ a h e)
  | .mac a m => itemText src (.mac a m)
  | .other a t => itemText src (.other a t)

partial def traitText (src : Src) : TraitItem → String
  | .fn a s b => itemText src (.fn a s b)
  | .const_ a h e => itemText src (.const_ a h e)
  | .mac a m => itemText src (.mac a m)
  | .other a t => itemText src (.other a t)

end

end Hooq.Conform
