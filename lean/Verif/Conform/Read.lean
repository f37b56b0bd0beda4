import Verif.Model.Root
import Verif.Model.MacroParse
import Verif.Model.ExcerptArgs

/-!
# Reading Rust text

A reader for the part of Rust that the repository's own tests use, so that the model can be
run on them (`Conform/Run.lean`).  It plays the part of `proc_macro2` and `syn`.  Nothing
here is used in proofs.
-/

namespace Hooq.Conform

/-! ## Tokens with full positions -/

/-- A token tree with start and end. -/
inductive RTok
  | ident (s : String) (l c el ec : Nat)
  | punct (ch : Char) (l c : Nat)
  | lit (text : String) (l c el ec : Nat)
  | group (d : Delim) (ts : List RTok) (l c el ec : Nat)
deriving Inhabited, Repr

structure LexSt where
  cs : List Char
  line : Nat := 1
  col : Nat := 1

abbrev Lex := StateT LexSt (Except String)

def lexFail {α : Type} (msg : String) : Lex α := do
  let s ← get
  throw s!"{s.line}:{s.col}: {msg}"

def next : Lex (Option Char) := do
  let s ← get
  match s.cs with
  | [] => pure none
  | c :: cs =>
    if c = '\n' then set { s with cs, line := s.line + 1, col := 1 }
    else set { s with cs, col := s.col + 1 }
    pure (some c)

def peekc (n : Nat := 0) : Lex (Option Char) := do
  let s ← get
  pure s.cs[n]?

def identStart (c : Char) : Bool := c.isAlpha || c = '_' || c.toNat > 127
def identRest (c : Char) : Bool := c.isAlphanum || c = '_' || c.toNat > 127

partial def takeWhileL (p : Char → Bool) (acc : List Char := []) : Lex (List Char) := do
  match ← peekc with
  | some c => if p c then do let _ ← next; takeWhileL p (c :: acc) else pure acc.reverse
  | none => pure acc.reverse

partial def blockComment (depth : Nat) : Lex Unit := do
  match ← next with
  | none => lexFail "unterminated comment"
  | some '*' =>
    if (← peekc) == some '/' then
      let _ ← next
      if depth = 1 then pure () else blockComment (depth - 1)
    else blockComment depth
  | some '/' =>
    if (← peekc) == some '*' then
      let _ ← next
      blockComment (depth + 1)
    else blockComment depth
  | some _ => blockComment depth

partial def strBody (acc : List Char) : Lex (List Char) := do
  match ← next with
  | none => lexFail "unterminated string"
  | some '"' => pure ('"' :: acc)
  | some '\\' => do
    let c ← next
    strBody ((c.getD ' ') :: '\\' :: acc)
  | some c => strBody (c :: acc)

partial def rawBody (hashes : Nat) (acc : List Char) : Lex (List Char) := do
  match ← next with
  | none => lexFail "unterminated raw string"
  | some '"' => do
    let s ← get
    if s.cs.take hashes == List.replicate hashes '#' then do
      for _ in [0:hashes] do let _ ← next
      pure (List.replicate hashes '#' ++ '"' :: acc)
    else rawBody hashes ('"' :: acc)
  | some c => rawBody hashes (c :: acc)

partial def skipWs : Lex Unit := do
  match ← peekc with
  | some c =>
    if c.isWhitespace then do let _ ← next; skipWs
    else if c = '/' then
      match ← peekc 1 with
      | some '/' => do
        let _ ← takeWhileL (· ≠ '\n')
        skipWs
      | some '*' => do
        let _ ← next; let _ ← next
        blockComment 1
        skipWs
      | _ => pure ()
    else pure ()
  | none => pure ()

def closeOf : Char → Char
  | '(' => ')'
  | '[' => ']'
  | _ => '}'

def delimOf : Char → Delim
  | '(' => .paren
  | '[' => .bracket
  | _ => .brace

/-- Number literal after its first digit. -/
partial def number (acc : List Char) : Lex (List Char) := do
  match ← peekc with
  | some c =>
    if identRest c then do let _ ← next; number (c :: acc)
    else if c = '.' && !acc.contains '.' then
      match ← peekc 1 with
      | some d => if d.isDigit then do let _ ← next; number ('.' :: acc) else pure acc.reverse
      | none => pure acc.reverse
    else pure acc.reverse
  | none => pure acc.reverse

mutual
partial def lexToks (close : Option Char) (acc : List RTok) : Lex (List RTok) := do
  skipWs
  let s ← get
  let (l, c) := (s.line, s.col)
  match ← peekc with
  | none => if close.isSome then lexFail "missing delimiter" else pure acc.reverse
  | some ch =>
    if some ch == close then do let _ ← next; pure acc.reverse
    else if ch ∈ ['(', '[', '{'] then do
      let _ ← next
      let ts ← lexToks (some (closeOf ch)) []
      let e ← get
      lexToks close (.group (delimOf ch) ts l c e.line e.col :: acc)
    else if ch ∈ [')', ']', '}'] then lexFail "unexpected delimiter"
    else if ch = '"' then do
      let _ ← next
      let body ← strBody ['"']
      let e ← get
      lexToks close (.lit (String.ofList body.reverse) l c e.line e.col :: acc)
    else if ch = 'r' && ((← peekc 1) == some '"' || ((← peekc 1) == some '#' && ((← peekc 2) == some '"' || (← peekc 2) == some '#'))) then do
      let _ ← next
      let hashes ← takeWhileL (· = '#')
      let _ ← next
      let body ← rawBody hashes.length []
      let e ← get
      lexToks close (.lit ("r" ++ String.ofList hashes ++ "\"" ++ String.ofList body.reverse) l c e.line e.col :: acc)
    else if identStart ch then do
      let cs ← takeWhileL identRest
      -- raw identifiers and byte strings
      if cs = ['r'] && (← peekc) == some '#' then do
        let _ ← next
        let cs ← takeWhileL identRest
        let e ← get
        lexToks close (.ident ("r#" ++ String.ofList cs) l c e.line e.col :: acc)
      else if (cs = ['b'] || cs = ['c']) && (← peekc) == some '"' then do
        let _ ← next
        let body ← strBody ['"']
        let e ← get
        lexToks close (.lit (String.ofList (cs ++ body.reverse)) l c e.line e.col :: acc)
      else
        let e ← get
        lexToks close (.ident (String.ofList cs) l c e.line e.col :: acc)
    else if ch.isDigit then do
      let _ ← next
      let cs ← number [ch]
      let e ← get
      lexToks close (.lit (String.ofList cs) l c e.line e.col :: acc)
    else if ch = '\'' then do
      let c1 ← peekc 1
      let c2 ← peekc 2
      if c1 == some '\\' then do
        let _ ← next; let _ ← next; let x ← next
        let rest ← takeWhileL (· ≠ '\'')
        let _ ← next
        let e ← get
        lexToks close (.lit ("'\\" ++ String.ofList (x.getD ' ' :: rest) ++ "'") l c e.line e.col :: acc)
      else if c2 == some '\'' then do
        let _ ← next; let x ← next; let _ ← next
        let e ← get
        lexToks close (.lit ("'" ++ String.singleton (x.getD ' ') ++ "'") l c e.line e.col :: acc)
      else do
        let _ ← next
        lexToks close (.punct '\'' l c :: acc)
    else do
      let _ ← next
      lexToks close (.punct ch l c :: acc)
end

def lexFile (src : String) : Except String (List RTok) :=
  (lexToks none []).run' { cs := src.toList }

/-! ## Token trees of the model -/

def hexVal (c : Char) : Nat :=
  if c.isDigit then c.toNat - '0'.toNat else c.toLower.toNat - 'a'.toNat + 10

/-- Value of the inside of a string literal. -/
partial def unescape : List Char → List Char
  | [] => []
  | '\\' :: 'n' :: r => '\n' :: unescape r
  | '\\' :: 't' :: r => '\t' :: unescape r
  | '\\' :: 'r' :: r => '\r' :: unescape r
  | '\\' :: '0' :: r => Char.ofNat 0 :: unescape r
  | '\\' :: '\n' :: r => unescape (r.dropWhile Char.isWhitespace)
  | '\\' :: 'x' :: a :: b :: r => Char.ofNat (16 * hexVal a + hexVal b) :: unescape r
  | '\\' :: 'u' :: '{' :: r =>
    let ds := r.takeWhile (· ≠ '}')
    Char.ofNat (ds.foldl (fun n c => 16 * n + hexVal c) 0) :: unescape ((r.dropWhile (· ≠ '}')).drop 1)
  | '\\' :: c :: r => c :: unescape r
  | c :: r => c :: unescape r

/-- The value of a string literal. -/
def strValue (text : String) : Option String :=
  match text.toList with
  | '"' :: r => some (String.ofList (unescape r.dropLast))
  | 'r' :: r =>
    let n := (r.takeWhile (· = '#')).length
    some (String.ofList (((r.drop (n + 1)).reverse.drop (n + 1)).reverse))
  | _ => none

def litOfText (text : String) : Lit :=
  match strValue text with
  | some s => .str s
  | none =>
    if text.toList.all Char.isDigit then .int text.toNat!
    else if text.endsWith "usize" && (text.toList.take (text.length - 5)).all Char.isDigit then
      .usize (String.ofList (text.toList.take (text.length - 5))).toNat!
    else .other text

partial def RTok.toTT (file : String) : RTok → TT
  | .ident s l c _ _ => .ident s ⟨file, l, c⟩
  | .punct ch l c => .punct ch ⟨file, l, c⟩
  | .lit t l c _ _ => .lit (litOfText t) ⟨file, l, c⟩
  | .group d ts l c _ _ => .group d (ts.map (RTok.toTT file)) ⟨file, l, c⟩

def escapeStr (s : String) : String :=
  "\"" ++ String.join (s.toList.map fun c =>
    if c = '"' then "\\\"" else if c = '\\' then "\\\\" else if c = '\n' then "\\n"
    else if c = '\t' then "\\t" else if c = '\r' then "\\r" else if c = Char.ofNat 0 then "\\0" else String.singleton c) ++ "\""

def litText : Lit → String
  | .str s => escapeStr s
  | .int n => toString n
  | .usize n => toString n ++ "usize"
  | .other t => t

def openText : Delim → String
  | .paren => "(" | .brace => "{" | .bracket => "[" | .none => ""
def closeText : Delim → String
  | .paren => ")" | .brace => "}" | .bracket => "]" | .none => ""

mutual
/-- Text of a token list; adjacent punctuation is not separated. -/
partial def ttText : TT → String
  | .ident s _ => s
  | .punct c _ => String.singleton c
  | .lit l _ => litText l
  | .group d ts _ => openText d ++ ttsText ts ++ closeText d
  | .exprHole _ => "$expr"
  | .sourceHole _ => "$source"
  | .valueHole v _ => v.text
  | .bindingsHole _ _ => "$bindings"
  | .metaHole _ _ => "$hooq_meta"
partial def ttsText : List TT → String
  | [] => ""
  | [t] => ttText t
  | t :: u :: r =>
    (match t, u with
      | .punct _ _, .punct _ _ => ttText t
      | .punct '\'' _, _ => ttText t
      | _, _ => ttText t ++ " ") ++ ttsText (u :: r)
end

/-! ## Parsing -/

instance : Nonempty SynParsers :=
  ⟨⟨fun _ => none, fun _ => none, fun _ => none, fun _ => none⟩⟩

abbrev P := StateT (List TT) (Except String)

def pos (ts : List TT) : String :=
  match ts with
  | [] => "end"
  | t :: _ => s!"{t.span.line}:{t.span.col} `{ttsText (ts.take 4)}`"

def pfail {α : Type} (msg : String) : P α := do throw s!"{msg} at {pos (← get)}"

def adjacent (a b : Span) : Bool := a.line = b.line && (a.col + 1 = b.col || a.col = b.col)

/-- The first tokens are the punctuation characters, written together. -/
def opAt : List Char → List TT → Bool
  | [], _ => true
  | c :: cs, .punct d sp :: rest =>
    c = d && (match cs, rest with
      | [], _ => true
      | _, t :: _ => adjacent sp t.span && opAt cs rest
      | _, [] => false)
  | _, _ => false

def isOp (s : String) (ts : List TT) : Bool := opAt s.toList ts

def peekOp (s : String) : P Bool := do pure (isOp s (← get))
def eatOp (s : String) : P Bool := do
  if ← peekOp s then do
    set ((← get).drop s.length); pure true
  else pure false
def needOp (s : String) : P Unit := do
  if !(← eatOp s) then pfail s!"expected {s}"
def isKw (k : String) : List TT → Bool
  | .ident s _ :: _ => s == k
  | _ => false
def peekKw (k : String) : P Bool := do pure (isKw k (← get))
def eatKw (k : String) : P Bool := do
  if ← peekKw k then do set ((← get).drop 1); pure true else pure false
def isGroup (d : Delim) : List TT → Bool
  | .group d' _ _ :: _ => d == d'
  | _ => false
def peekGroup (d : Delim) : P Bool := do pure (isGroup d (← get))
def needGroup (d : Delim) : P (List TT) := do
  match ← get with
  | .group d' ts _ :: rest => if d = d' then do set rest; pure ts else pfail "expected group"
  | _ => pfail "expected group"
def anyTok : P TT := do
  match ← get with
  | t :: rest => do set rest; pure t
  | [] => pfail "unexpected end"
def atEof : P Bool := do pure (← get).isEmpty
def curSpan : P Span := do
  match ← get with
  | t :: _ => pure t.span
  | [] => pure .callSite
def needIdent : P String := do
  match ← get with
  | .ident s _ :: rest => do set rest; pure s
  | _ => pfail "expected identifier"

/-- Run a parser on the inside of a group, which must be read to its end. -/
def inside {α : Type} (ts : List TT) (p : P α) : P α := do
  match p.run ts with
  | .ok (a, []) => pure a
  | .ok (_, rest) => throw s!"leftover tokens at {pos rest}"
  | .error e => throw e

/-- Tokens up to one where the condition holds, not counting inside angle brackets. -/
partial def until_ (stop : List TT → Bool) (depth : Nat := 0) (acc : List TT := []) : P (List TT) := do
  let ts ← get
  if depth = 0 && stop ts then pure acc.reverse
  else match ts with
    | [] => pure acc.reverse
    | t :: rest =>
      if isOp "->" ts || isOp "=>" ts || isOp ">=" ts && depth = 0 then do
        set (rest.drop 1)
        until_ stop depth (rest.headD t :: t :: acc)
      else do
        set rest
        let depth := if t.isPunct '<' then depth + 1 else if t.isPunct '>' then depth - 1 else depth
        until_ stop depth (t :: acc)

/-- Generic arguments, after `<`. -/
def angleArgs : P (List TT) := do
  let ts ← until_ (fun ts => isOp ">" ts) 0
  needOp ">"
  pure ts

/-- A path without generic arguments. -/
partial def modPath : P Path := do
  let leading ← eatOp "::"
  let rec go (acc : List Seg) : P (List Seg) := do
    let s ← needIdent
    if isOp "::" (← get) && (match ((← get).drop 2) with | .ident _ _ :: _ => true | _ => false) then do
      needOp "::"
      go ({ ident := s } :: acc)
    else pure (({ ident := s } : Seg) :: acc).reverse
  pure { leading, segs := ← go [] }

/-- A path in an expression (generic arguments need `::`) or in a type. -/
partial def genPath (expr : Bool) : P Path := do
  let leading ← eatOp "::"
  let rec go (acc : List Seg) : P (List Seg) := do
    let s ← needIdent
    let mut args := false
    if expr then
      if ← peekOp "::<" then do
        needOp "::"; needOp "<"
        let _ ← angleArgs
        args := true
    else
      if (← peekOp "<") then do
        needOp "<"
        let _ ← angleArgs
        args := true
      else if (← peekGroup .paren) && s ∈ ["Fn", "FnMut", "FnOnce"] then do
        let _ ← anyTok
        args := true
        if ← eatOp "->" then
          let _ ← until_ (fun ts => match ts with
            | [] => true
            | .ident "where" _ :: _ => true
            | .group .brace _ _ :: _ => true
            | t :: _ => t.isPunct ',' || t.isPunct ';' || t.isPunct '=' || t.isPunct '+')
    if ← peekOp "::" then do
      needOp "::"
      go ({ ident := s, hasArgs := args } :: acc)
    else pure (({ ident := s, hasArgs := args } : Seg) :: acc).reverse
  pure { leading, segs := ← go [] }

def pathText (p : Path) : String :=
  (if p.leading then "::" else "") ++ "::".intercalate (p.segs.map (·.ident))

def tryP {α : Type} (p : P α) : P (Option α) := fun ts =>
  match p.run ts with
  | .ok (a, r) => .ok (some a, r)
  | .error _ => .ok (none, ts)

/-- A value: its view and its text. -/
def valueOf (ts : List TT) : Value :=
  let view : ValueView := match ts with
    | [.lit (.str s) _] => .litStr s
    | _ => match (genPath true).run ts with
      | .ok (p, []) => if p.segs.all (fun s => s.ident ∉ ["true", "false"]) then .path p else .other
      | _ => .other
  { view, text := ttsText ts }

/-- The content of an attribute; in a list of them, a value ends at a comma. -/
def metaP (inList : Bool := false) : P Meta := do
  let p ← modPath
  match ← get with
  | .group _ ts _ :: rest => do set rest; pure (.list p ts)
  | _ =>
    if ← eatOp "=" then do
      let ts ← until_ (fun ts => match ts with | t :: _ => inList && t.isPunct ',' | [] => true)
      pure (.nv p (valueOf ts))
    else pure (.path p)

partial def metaList : P (List Meta) := do
  if ← atEof then pure []
  else do
    let m ← metaP true
    if ← atEof then pure [m]
    else do needOp ","; pure (m :: (← metaList))

partial def outerAttrs : P (List Attr) := do
  if (← peekOp "#") && isGroup .bracket ((← get).drop 1) then do
    let _ ← anyTok
    let ts ← needGroup .bracket
    let m ← inside ts metaP
    pure (m :: (← outerAttrs))
  else pure []

partial def innerAttrs : P (List Attr) := do
  if (← peekOp "#!") && isGroup .bracket ((← get).drop 2) then do
    let _ ← anyTok; let _ ← anyTok
    let ts ← needGroup .bracket
    let m ← inside ts metaP
    pure (m :: (← innerAttrs))
  else pure []

/-- A type after `as`. -/
partial def castType : P String := do
  match ← get with
  | .punct '*' _ :: .ident k _ :: rest => do set rest; pure s!"*{k} {← castType}"
  | .punct '&' _ :: rest => do
    set rest
    if ← eatOp "'" then
      let l ← needIdent
      pure s!"&'{l} {← castType}"
    else if ← eatKw "mut" then pure s!"&mut {← castType}" else pure s!"&{← castType}"
  | t@(.group _ _ _) :: rest => do set rest; pure (ttText t)
  | ts => do
    let _ ← genPath false
    let n := ts.length - (← get).length
    pure (ttsText (ts.take n))

def keywords : List String :=
  ["as", "break", "const", "continue", "else", "enum", "extern", "fn", "for", "if", "impl", "in", "let", "loop",
   "match", "mod", "move", "mut", "pub", "ref", "return", "static", "struct", "trait", "type", "unsafe",
   "use", "where", "while", "async", "await", "dyn"]

def retType (ts : List TT) : RetType :=
  match ts with
  | [] => .none
  | _ => match (genPath false).run ts with
    | .ok (p, []) => if p.segs.any (fun s => s.ident ∈ keywords) then .other (ttsText ts) else .path p
    | _ => .other (ttsText ts)

/-- Binary operators with their binding strength, longest first. -/
def binOps : List (String × Nat) :=
  [("<<=", 1), (">>=", 1), ("+=", 1), ("-=", 1), ("*=", 1), ("/=", 1), ("%=", 1), ("^=", 1), ("&=", 1), ("|=", 1),
   ("||", 3), ("&&", 4), ("==", 5), ("!=", 5), ("<=", 5), (">=", 5), ("<<", 9), (">>", 9),
   ("<", 5), (">", 5), ("|", 6), ("^", 7), ("&", 8), ("+", 10), ("-", 10), ("*", 11), ("/", 11), ("%", 11)]

def binOpAt (ts : List TT) : Option (String × Nat) :=
  if isOp "=>" ts then none else binOps.find? fun o => isOp o.1 ts

def Expr.withAttrs (a : List Attr) (e : Expr) : Expr := e.setAttrs (a ++ e.attrs)

/-- Where the attributes of an expression statement go. -/
partial def attrTarget (a : List Attr) : Expr → Expr
  | .mk at_ sp (.assign l r) => .mk at_ sp (.assign (attrTarget a l) r)
  | .mk at_ sp (.binary l o r) => .mk at_ sp (.binary (attrTarget a l) o r)
  | .mk at_ sp (.cast e t) => .mk at_ sp (.cast (attrTarget a e) t)
  | e => Expr.withAttrs a e

def ExprKind.blockLike : ExprKind → Bool
  | .block _ _ | .if_ _ _ _ | .match_ _ _ | .loop _ _ | .while_ _ _ _ | .forLoop _ _ _ | .unsafe_ _
  | .const_ _ | .async _ | .tryBlock _ => true
  | _ => false

/-- Does a statement of this expression need a semicolon? -/
def needsSemi : Expr → Bool
  | .mk _ _ (.async _) => true
  | .mk _ _ k => !ExprKind.blockLike k

/-- Can an expression begin here? -/
def exprStarts : List TT → Bool
  | [] => false
  | .punct c _ :: rest => c ∈ ['-', '*', '!', '&', '|', '<', '\'', '#'] || c = '.' && isOp "." rest || c = ':'
  | .ident s _ :: _ => s ∉ ["as", "else", "in", "where"]
  | .group d _ _ :: _ => d ≠ .none
  | .lit _ _ :: _ => true
  | _ => true

mutual

/-- An expression; `st` allows struct literals. -/
partial def expr (st : Bool := true) : P Expr := do
  let l ← unary st
  climb st l 0

/-- Operators after a left operand. -/
partial def climb (st : Bool) (l : Expr) (min : Nat) : P Expr := do
  let ts ← get
  let .mk _ sp _ := l
  if isOp ".." ts then
    if min > 2 then pure l
    else do
      let op := if isOp "..=" ts then "..=" else ".."
      needOp op
      let ts ← get
      if exprStarts ts && !(isGroup .brace ts && !st) then do
        let r ← unary st
        let r ← climb st r 3
        climb st (.mk [] sp (.range (some l) op (some r))) min
      else climb st (.mk [] sp (.range (some l) op none)) min
  else match binOpAt ts with
  | some (op, p) =>
    if p < min then pure l
    else do
      needOp op
      let r ← unary st
      let r ← if p = 1 then climb st r 1 else climb st r (p + 1)
      climb st (.mk [] sp (.binary l op r)) min
  | none =>
    if isOp "=" ts && !isOp "=>" ts then
      if min > 1 then pure l
      else do
        needOp "="
        let r ← unary st
        let r ← climb st r 1
        climb st (.mk [] sp (.assign l r)) min
    else if isKw "as" ts then
      if min > 12 then pure l
      else do
        let _ ← anyTok
        let t ← castType
        climb st (.mk [] sp (.cast l t)) min
    else pure l

partial def unary (st : Bool) : P Expr := do
  let attrs ← outerAttrs
  let sp ← curSpan
  let ts ← get
  if isOp "&" ts then do
    let _ ← anyTok
    if isKw "raw" (← get) && (isKw "const" ((← get).drop 1) || isKw "mut" ((← get).drop 1)) then do
      let _ ← anyTok
      let m ← needIdent
      let e ← unary st
      pure (.mk (attrs ++ []) sp (.rawAddr (Expr.withAttrs [] (if m = "" then e else e))))
    else do
      let m ← eatKw "mut"
      let e ← unary st
      pure (.mk attrs sp (if m then .unary "&mut" e else .reference e))
  else if isOp "-" ts || isOp "*" ts || isOp "!" ts then do
    let t ← anyTok
    let e ← unary st
    pure (.mk attrs sp (.unary (ttText t) e))
  else if isOp ".." ts then do
    let op := if isOp "..=" ts then "..=" else ".."
    needOp op
    let ts ← get
    if exprStarts ts && !(isGroup .brace ts && !st) then do
      let r ← unary st
      let r ← climb st r 3
      pure (.mk attrs sp (.range none op (some r)))
    else pure (.mk attrs sp (.range none op none))
  else do
    let a ← atom st
    let e ← trailer a
    pure (Expr.withAttrs attrs e)

/-- Postfix operators. -/
partial def trailer (e : Expr) : P Expr := do
  let ts ← get
  let .mk _ sp _ := e
  match ts with
  | .punct '?' q :: rest => do set rest; trailer (.mk [] sp (.try_ e q))
  | .group .paren as _ :: rest => do
    set rest
    let as ← inside as exprList
    trailer (.mk [] sp (.call e as))
  | .group .bracket is _ :: rest => do
    set rest
    let i ← inside is expr
    trailer (.mk [] sp (.index e i))
  | .punct '.' _ :: .ident "await" _ :: rest => do
    set rest
    trailer (.mk [] sp (.await e))
  | .punct '.' _ :: .lit l _ :: rest => do
    set rest
    trailer (.mk [] sp (.field e (litText l)))
  | .punct '.' _ :: .ident m _ :: rest => do
    set rest
    let mut name := m
    if ← peekOp "::<" then do
      needOp "::"; needOp "<"
      let a ← angleArgs
      name := s!"{m}::<{ttsText a}>"
    match ← get with
    | .group .paren as _ :: rest => do
      set rest
      let as ← inside as exprList
      trailer (.mk [] sp (.methodCall e name as))
    | _ => trailer (.mk [] sp (.field e m))
  | _ => pure e

partial def exprList : P (List Expr) := do
  if ← atEof then pure []
  else do
    let e ← expr
    if ← atEof then pure [e]
    else do needOp ","; pure (e :: (← exprList))

partial def blockBody : P (List Stmt) := do
  let ts ← needGroup .brace
  inside ts stmts

partial def optExpr (st : Bool) : P (Option Expr) := do
  let ts ← get
  if exprStarts ts && !(isGroup .brace ts && !st) && !isOp "=>" ts then do pure (some (← expr st)) else pure none

partial def label : P String := do
  if (← peekOp "'") then do
    let _ ← anyTok
    let l ← needIdent
    pure s!"'{l}"
  else pure ""

partial def atom (st : Bool) : P Expr := do
  let sp ← curSpan
  let ts ← get
  match ts with
  | .lit l _ :: rest => do set rest; pure (.mk [] sp (.lit l))
  | .group .paren ps _ :: rest => do
    set rest
    match (expr (st := true)).run ps with
    | .ok (e, []) => pure (.mk [] sp (.paren e))
    | _ => do pure (.mk [] sp (.tuple (← inside ps exprList)))
  | .group .bracket es _ :: rest => do
    set rest
    match (expr (st := true)).run es with
    | .ok (e, .punct ';' _ :: r) => do
      let n ← inside r expr
      pure (.mk [] sp (.repeat_ e n))
    | _ => do pure (.mk [] sp (.array (← inside es exprList)))
  | .group .brace _ _ :: _ => do
    let b ← blockBody
    pure (.mk [] sp (.block "" b))
  | .punct '\'' _ :: _ => do
    let l ← label
    needOp ":"
    if ← eatKw "loop" then do pure (.mk [] sp (.loop s!"{l}:" (← blockBody)))
    else if ← eatKw "while" then do
      let c ← expr false
      pure (.mk [] sp (.while_ s!"{l}:" c (← blockBody)))
    else if ← eatKw "for" then do
      let p ← until_ (isKw "in")
      let _ ← anyTok
      let e ← expr false
      pure (.mk [] sp (.forLoop s!"{l}: for {ttsText p} in" e (← blockBody)))
    else do pure (.mk [] sp (.block s!"{l}:" (← blockBody)))
  | .punct '|' _ :: _ => closure sp
  | .punct '<' _ :: _ => do
    -- qualified path
    let _ ← anyTok
    let _ ← angleArgs
    needOp "::"
    let p ← genPath true
    pure (.mk [] sp (.path { p with segs := { ident := "<>", hasArgs := true } :: p.segs }))
  | .ident k _ :: rest =>
    if k = "if" then ifExpr
    else if k = "let" then do
      set rest
      let p ← until_ (fun ts => isOp "=" ts && !isOp "==" ts && !isOp "=>" ts)
      needOp "="
      let r ← unary false
      let r ← climb false r 5
      pure (.mk [] sp (.let_ (ttsText p) r))
    else if k = "match" then do
      set rest
      let e ← expr false
      let as ← needGroup .brace
      let as ← inside as arms
      pure (.mk [] sp (.match_ e as))
    else if k = "loop" then do set rest; pure (.mk [] sp (.loop "" (← blockBody)))
    else if k = "while" then do
      set rest
      let c ← expr false
      pure (.mk [] sp (.while_ "" c (← blockBody)))
    else if k = "for" then do
      set rest
      let p ← until_ (isKw "in")
      let _ ← anyTok
      let e ← expr false
      pure (.mk [] sp (.forLoop s!"for {ttsText p} in" e (← blockBody)))
    else if k = "unsafe" && isGroup .brace rest then do set rest; pure (.mk [] sp (.unsafe_ (← blockBody)))
    else if k = "const" && isGroup .brace rest then do set rest; pure (.mk [] sp (.const_ (← blockBody)))
    else if k = "async" && (isGroup .brace rest || isKw "move" rest && isGroup .brace (rest.drop 1)) then do
      set rest
      let m ← eatKw "move"
      let b ← blockBody
      pure (.mk [] (if m then sp else sp) (.async b))
    else if k = "move" || k = "async" || k = "static" then closure sp
    else if k = "return" then do set rest; pure (.mk [] sp (.ret (← optExpr st)))
    else if k = "break" then do
      set rest
      let l ← label
      pure (.mk [] sp (.break_ l (← optExpr st)))
    else if k = "continue" then do
      set rest
      pure (.mk [] sp (.continue_ (← label)))
    else if k = "yield" then do set rest; pure (.mk [] sp (.yield_ (← optExpr st)))
    else if k = "_" then do set rest; pure (.mk [] sp .infer)
    else if k ∈ ["true", "false"] then do set rest; pure (.mk [] sp (.lit (.other k)))
    else if k ∈ keywords then pfail "unexpected keyword"
    else pathExpr st sp
  | .punct ':' _ :: _ => if isOp "::" ts then pathExpr st sp else pfail "unexpected token"
  | _ => pfail "expected expression"

partial def pathExpr (st : Bool) (sp : Span) : P Expr := do
  let p ← genPath true
  let ts ← get
  match ts with
  | .punct '!' b :: .group d body _ :: rest =>
    if isOp "!=" ts || b.line = 0 && false then pure (.mk [] sp (.path p))
    else do
      set rest
      pure (.mk [] sp (.mac (.mk p d (readBody (synParsers ()) body))))
  | .group .brace fs _ :: rest =>
    if !st then pure (.mk [] sp (.path p))
    else match structBody.run fs with
      | .ok ((fields, rst), []) => do
        set rest
        pure (.mk [] sp (.struct_ (pathText p) fields rst))
      | _ => pure (.mk [] sp (.path p))
  | _ => pure (.mk [] sp (.path p))

partial def structBody : P (List FieldVal × Option Expr) := do
  if ← atEof then pure ([], none)
  else if ← peekOp ".." then do
    needOp ".."
    let e ← expr
    pure ([], some e)
  else do
    let attrs ← outerAttrs
    let t ← anyTok
    let sp := t.span
    let m ← match t with
      | .ident s _ => pure s
      | .lit l _ => pure (litText l)
      | _ => pfail "field"
    let f ← if (← peekOp ":") && !(← peekOp "::") then do
        needOp ":"
        let e ← expr
        pure (FieldVal.mk attrs s!"{m}:" e)
      else pure (FieldVal.mk attrs "" (.mk [] sp (.path (Path.ofIdents [m]))))
    if ← atEof then pure ([f], none)
    else do
      needOp ","
      let (fs, r) ← structBody
      pure (f :: fs, r)

partial def closure (sp : Span) : P Expr := do
  let ts0 ← get
  let _ ← eatKw "static"
  let _ ← eatKw "async"
  let _ ← eatKw "move"
  if ← eatOp "||" then pure ()
  else do
    needOp "|"
    let _ ← until_ (fun ts => isOp "|" ts)
    needOp "|"
  let out ← if ← eatOp "->" then until_ (fun ts => isGroup .brace ts) else pure []
  let n := ts0.length - (← get).length
  let text := ttsText (ts0.take n)
  let body ← expr
  pure (.mk [] sp (.closure { output := retType out, text := text ++ " {}" } body))

partial def ifExpr : P Expr := do
  let sp ← curSpan
  let _ ← anyTok
  let c ← expr false
  let t ← blockBody
  let e ← if ← eatKw "else" then
      if ← peekKw "if" then do pure (some (← ifExpr))
      else do
        let sp ← curSpan
        pure (some (.mk [] sp (.block "" (← blockBody))))
    else pure none
  pure (.mk [] sp (.if_ c t e))

/-- An expression that may end early after a block. -/
partial def earlyExpr : P Expr := do
  let attrs ← outerAttrs
  let ts ← get
  let starts := match ts with
    | .ident k _ :: rest => k ∈ ["if", "match", "while", "for", "loop"] || k ∈ ["unsafe", "const"] && isGroup .brace rest
    | .group .brace _ _ :: _ => true
    | .punct '\'' _ :: _ => true
    | _ => false
  if starts then do
    let e ← atom true
    let ts ← get
    if isOp "." ts && !isOp ".." ts || isOp "?" ts then do
      let e ← trailer e
      climb true (Expr.withAttrs attrs e) 0
    else pure (Expr.withAttrs attrs e)
  else do
    let e ← unary true
    climb true (Expr.withAttrs attrs e) 0

partial def arms : P (List Arm) := do
  if ← atEof then pure []
  else do
    let attrs ← outerAttrs
    let p ← until_ (fun ts => isOp "=>" ts || isKw "if" ts)
    let g ← if ← eatKw "if" then do pure (some (← expr)) else pure none
    needOp "=>"
    let b ← earlyExpr
    let _ ← eatOp ","
    pure (.mk attrs (ttsText p) g b :: (← arms))

partial def stmts : P (List Stmt) := do
  while ← eatOp ";" do pure ()
  if ← atEof then pure []
  else do
    let s ← stmt
    let rest ← stmts
    pure (s :: rest)

partial def stmt : P Stmt := do
  let attrs ← outerAttrs
  let ts ← get
  -- brace-style macro
  match modPath.run ts with
  | .ok (p, .punct '!' _ :: .group .brace body _ :: rest) =>
    if !(isOp "." rest && !isOp ".." rest || isOp "?" rest) then do
      set rest
      let semi ← eatOp ";"
      return .mac attrs (.mk p .brace (readBody (synParsers ()) body)) semi
  | _ => pure ()
  if isKw "let" ts then do
    let _ ← anyTok
    let p ← until_ (fun ts => isOp ";" ts || isOp "=" ts && !isOp "==" ts)
    if ← eatOp "=" then do
      let e ← expr
      let d ← if ← eatKw "else" then do
          let sp ← curSpan
          pure (some (.mk [] sp (.block "" (← blockBody))))
        else pure none
      needOp ";"
      return .localInit attrs (ttsText p) e d
    else do
      needOp ";"
      return .localDecl attrs (ttsText p)
  match (itemWith attrs).run ts with
  | .ok (i, rest) => do
    set rest
    return .item i
  | .error _ => pure ()
  let e ← earlyExpr
  let e := attrTarget attrs e
  let semi ← eatOp ";"
  match e with
  | .mk at_ _ (.mac m) =>
    let brace := match m with | .mk _ d _ => d = .brace
    if semi || brace then return .mac at_ m semi
  | _ => pure ()
  if semi then return .expr e true
  else if !(← atEof) && needsSemi e then
    match e, ← get with
    | _, .punct ',' _ :: _ => return .expr e false
    | _, _ => pfail "expected ;"
  else return .expr e false

partial def itemP : P Item := do
  let attrs ← outerAttrs
  itemWith attrs

partial def itemWith (attrs : List Attr) : P Item := do
  let ts0 ← get
  if ← eatKw "pub" then do
    if ← peekGroup .paren then let _ ← anyTok
  let ts ← get
  let k := match ts with
    | .ident k _ :: _ => k
    | _ => ""
  let k2 := match ts with
    | _ :: .ident k _ :: _ => k
    | _ => ""
  if k = "fn" || (k ∈ ["async", "const", "unsafe", "extern"]) && (k2 = "fn" || k2 ∈ ["unsafe", "async", "extern"]) then do
    let (sig, body) ← fnP
    match body with
    | some b => pure (.fn attrs sig b)
    | none => pfail "function without body"
  else if k = "impl" || k = "unsafe" && k2 = "impl" then do
    let h ← until_ (isGroup .brace)
    let b ← needGroup .brace
    let is ← inside b (do let _ ← innerAttrs; implItems)
    pure (.impl_ attrs (ttsText h) is)
  else if k = "trait" || k = "unsafe" && k2 = "trait" then do
    let h ← until_ (isGroup .brace)
    let b ← needGroup .brace
    let is ← inside b (do let _ ← innerAttrs; traitItems)
    pure (.trait_ attrs (ttsText h) is)
  else if k = "mod" && isGroup .brace (ts.drop 2) then do
    let _ ← anyTok
    let n ← needIdent
    let b ← needGroup .brace
    let (ia, is) ← inside b (do let a ← innerAttrs; pure (a, ← items))
    pure (.mod_ (attrs ++ ia) n is)
  else if (k = "const" || k = "static") && !isGroup .brace (ts.drop 1) && k2 ≠ "move" then do
    let h ← until_ (fun ts => isOp "=" ts)
    needOp "="
    let e ← expr
    needOp ";"
    pure (if k = "const" then .const_ attrs (ttsText h) e else .static_ attrs (ttsText h) e)
  else if k = "macro_rules" then do
    let _ ← anyTok
    needOp "!"
    let n ← needIdent
    match ← anyTok with
    | .group d body _ => do
      let _ ← eatOp ";"
      pure (.macroRules attrs n (.mk (Path.ofIdents ["macro_rules"]) d (.raw body)))
    | _ => pfail "macro_rules"
  else if k ∈ ["use", "type"] || k = "extern" || k = "mod" then do
    let b ← until_ (fun ts => isOp ";" ts)
    needOp ";"
    pure (.other attrs (ttsText b ++ ";"))
  else if k ∈ ["struct", "enum", "union"] && k2 ≠ "" then do
    let b ← until_ (fun ts => isOp ";" ts || isGroup .brace ts)
    match ← anyTok with
    | g@(.group _ _ _) => pure (.other attrs (ttsText (b ++ [g])))
    | _ => pure (.other attrs (ttsText b ++ ";"))
  else match modPath.run ts with
    | .ok (p, .punct '!' _ :: .group d body _ :: rest) => do
      set rest
      let semi ← eatOp ";"
      if ts.length = ts0.length && (semi || d = .brace) then
        pure (.mac attrs (.mk p d (readBody (synParsers ()) body)))
      else pfail "item macro"
    | _ => pfail "expected item"

/-- A signature and a body. -/
partial def fnP : P (Sig × Option (List Stmt)) := do
  let ts0 ← get
  let _ ← until_ (isKw "fn")
  let _ ← anyTok
  let n ← needIdent
  if ← peekOp "<" then do
    needOp "<"
    let _ ← angleArgs
  let _ ← needGroup .paren
  let out ← if ← eatOp "->" then until_ (fun ts => isGroup .brace ts || isKw "where" ts || isOp ";" ts) else pure []
  let _ ← until_ (fun ts => isGroup .brace ts || isOp ";" ts)
  let used := ts0.length - (← get).length
  let sig : Sig := { ident := n, output := retType out, text := ttsText (ts0.take used) }
  if ← eatOp ";" then pure (sig, none) else do pure (sig, some (← blockBody))

partial def items : P (List Item) := do
  if ← atEof then pure [] else do
    let i ← itemP
    let is ← items
    pure (i :: is)

partial def implItems : P (List ImplItem) := do
  if ← atEof then pure [] else do
    let attrs ← outerAttrs
    let i ← itemWith attrs
    let i : ImplItem := match i with
      | .fn a s b => .fn a s b
      | .const_ a h e => .const_ a h e
      | .mac a m => .mac a m
      | .other a t => .other a t
      | _ => .other [] "?"
    let is ← implItems
    pure (i :: is)

partial def traitItems : P (List TraitItem) := do
  if ← atEof then pure [] else do
    let attrs ← outerAttrs
    let ts ← get
    let i : TraitItem ← match (itemWith attrs).run ts with
      | .ok (i, rest) => do
        set rest
        pure (match i with
          | .fn a s b => .fn a s b
          | .const_ a h e => .const_ a h e
          | .mac a m => .mac a m
          | .other a t => .other a t
          | _ => .other [] "?")
      | .error _ => do
        let b ← until_ (fun ts => isOp ";" ts)
        needOp ";"
        pure (.other attrs (ttsText b ++ ";"))
    let is ← traitItems
    pure (i :: is)

partial def synParsers (_ : Unit) : SynParsers where
  file := fun ts => match (do let a ← innerAttrs; pure (a, ← fileItems)).run ts with
    | .ok r => some r
    | .error _ => none
  item := fun ts => (itemP.run ts).toOption
  expr := fun ts => ((expr (st := true)).run ts).toOption
  stmt := fun ts => (stmt.run ts).toOption

/-- `syn::File` reads items to the end. -/
partial def fileItems : P (List Item) := items

end

end Hooq.Conform
