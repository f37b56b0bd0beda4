import Verif.Conform.Print

/-!
# Running the model on source text

Expands the items of a source file that carry `#[hooq]` with the model, prints the result,
and compares it, token by token, with the expansion that the repository's tests record.
Macros of the standard library, which the recorded expansions show expanded, are expanded
by a small imitation.  Nothing here is used in proofs.
-/

namespace Hooq.Conform

/-! ## The environment of an expansion -/

mutual
/-- Holes as identifiers, so that emitted tokens can be parsed. -/
partial def unhole : TT → List TT
  | .exprHole sp => [.ident "__expr" sp]
  | .sourceHole sp => [.ident "__source" sp]
  | .valueHole v sp => match lexFile v.text with
    | .ok rs => [.group .paren (rs.map (RTok.toTT "")) sp]
    | .error _ => [.ident "__value" sp]
  | .bindingsHole _ sp => [.ident "__bindings" sp]
  | .metaHole _ sp => [.ident "__meta" sp]
  | .group d ts sp => [.group d (unholes ts) sp]
  | t => [t]
partial def unholes (ts : List TT) : List TT := ts.flatMap unhole
end

def wholeExpr (ts : List TT) : Option Expr :=
  match expr.run ts with
  | .ok (e, []) => some e
  | _ => none

def insertRearOf (ts : List TT) : Option Rear :=
  (wholeExpr (.ident "__expr" .callSite :: unholes ts)).map Expr.rear

def replaceShapeOf (r : Rear) (ts : List TT) : Option Shape :=
  match wholeExpr (unholes ts) with
  | none => none
  | some e => match e.kind with
    | .path p => if p.segs.map (·.ident) = ["__expr"] then some .same else some (.path p)
    | .call f _ => match f.kind with
      | .path p => some (.call p)
      | _ => some (.other e.rear)
    | _ =>
      match (unholes ts).getLast? with
      | some (.ident "__expr" _) => some (.other (match e.rear, r with
        | .whole, r => r
        | .part, .stuck => .stuck
        | x, _ => x))
      | _ => some (.other e.rear)

def parseNameValueOf (ts : List TT) : Option (Path × Value) :=
  match (metaP false).run ts with
  | .ok (.nv p v, []) => some (p, v)
  | _ => none

partial def parsePathsOf (ts : List TT) : Option (List Path) :=
  if ts.isEmpty then some []
  else match modPath.run ts with
    | .ok (p, []) => some [p]
    | .ok (p, t :: r) => if t.isPunct ',' then (parsePathsOf r).map (p :: ·) else none
    | _ => none

/-- A file of tables, far enough for those of the repository. -/
structure TomlState where
  cur : List String := []
  out : List (List String × TableFields) := []

def lexTT (s : String) : Option (List TT) :=
  match lexFile s with
  | .ok rs => some (rs.map fun r => RTok.toTT "" r)
  | .error _ => none

def tomlEnv (consume : Bool) : TomlEnv where
  consume := consume
  parsePath := fun s => match lexTT s with
    | some ts => match modPath.run ts with
      | .ok (p, []) => some p
      | _ => none
    | none => none
  lex := lexTT
  parseExpr := fun s => (lexTT s).map valueOf

/-- A basic string or a multi-line one, after its first quotation mark. -/
partial def tomlStr : List Char → Option (String × List Char)
  | '"' :: '"' :: '"' :: r =>
    let r := match r with | '\n' :: r => r | r => r
    let rec go (acc : List Char) : List Char → Option (String × List Char)
      | '"' :: '"' :: '"' :: r => some (String.ofList acc.reverse, r)
      | '\\' :: 'n' :: r => go ('\n' :: acc) r
      | '\\' :: c :: r => go (c :: acc) r
      | c :: r => go (c :: acc) r
      | [] => none
    go [] r
  | '"' :: r =>
    let rec go1 (acc : List Char) : List Char → Option (String × List Char)
      | '"' :: r => some (String.ofList acc.reverse, r)
      | '\\' :: 'n' :: r => go1 ('\n' :: acc) r
      | '\\' :: c :: r => go1 (c :: acc) r
      | c :: r => go1 (c :: acc) r
      | [] => none
    go1 [] r
  | _ => none

partial def trimWs : List Char → List Char
  | c :: r => if c.isWhitespace then trimWs r else c :: r
  | [] => []

partial def tomlStrs (cs : List Char) : Option (List String × List Char) :=
  match trimWs cs with
  | ']' :: r => some ([], r)
  | ',' :: r => tomlStrs r
  | cs => match tomlStr cs with
    | some (s, r) => match tomlStrs r with
      | some (l, r') => some (s :: l, r')
      | none => none
    | none => none

partial def tomlPairs (cs : List Char) : Option (List (String × String) × List Char) :=
  match trimWs cs with
  | '}' :: r => some ([], r)
  | ',' :: r => tomlPairs r
  | cs =>
    let key := cs.takeWhile fun c => c != '=' && !c.isWhitespace
    match trimWs (cs.drop key.length) with
    | '=' :: r => match tomlStr (trimWs r) with
      | some (s, r) => match tomlPairs r with
        | some (l, r') => some ((String.ofList key, s) :: l, r')
        | none => none
      | none => none
    | _ => none

def TomlState.set (st : TomlState) (f : TableFields → TableFields) : TomlState :=
  { st with out := st.out.map fun (p, t) => if p = st.cur then (p, f t) else (p, t) }

partial def tomlRead (st : TomlState) (cs : List Char) : Option TomlState :=
  match trimWs cs with
  | [] => some st
  | '[' :: r =>
    let name := r.takeWhile (· != ']')
    let p := (String.ofList name).splitOn "."
    tomlRead { cur := p, out := st.out ++ [(p, {})] } (r.drop (name.length + 1))
  | cs =>
    let key := cs.takeWhile fun c => c != '=' && !c.isWhitespace
    match trimWs (cs.drop key.length) with
    | '=' :: r =>
      let r := trimWs r
      match String.ofList key, r with
      | "method", _ => match tomlStr r with
        | some (s, r) => tomlRead (st.set fun t => { t with method := some s }) r
        | none => none
      | "bindings", '{' :: r => match tomlPairs r with
        | some (l, r) => tomlRead (st.set fun t => { t with bindings := l }) r
        | none => none
      | "hook_in_macros", 't' :: r => tomlRead (st.set fun t => { t with hookInMacros := some true }) (r.drop 3)
      | "hook_in_macros", 'f' :: r => tomlRead (st.set fun t => { t with hookInMacros := some false }) (r.drop 4)
      | k, '[' :: r => match tomlStrs r with
        | some (l, r) => tomlRead (st.set fun t => match k with
            | "trait_uses" => { t with traitUses := l }
            | "hook_targets" => { t with hookTargets := some l }
            | "tail_expr_idents" => { t with tailIdents := some l }
            | "ignore_tail_expr_idents" => { t with ignoreIdents := some l }
            | "result_types" => { t with resultTypes := some l }
            | _ => t) r
        | none => none
      | _, _ => none
    | _ => none

/-- The tables whose path begins with the given one, as a tree. -/
partial def tomlTree (l : List (List String × TableFields)) (pre : List String) : AMap Table :=
  let here := l.filter fun (p, _) => p.dropLast = pre
  here.map fun (p, t) => (p.getLastD "", .mk t (tomlTree l p))

def runEnv (consume : Bool) (toml : Option String) : Except String Env := do
  let ft : PresetFeatures := ⟨true, true, true, true⟩
  let base := presetFlavors consume [] ft
  let store ← match toml with
    | none => pure base
    | some t => match tomlRead {} t.toList with
      | none => throw "cannot read hooq.toml"
      | some st => match applyToml (tomlEnv consume) (defaultSettings consume []) base (tomlTree st.out []) with
        | .ok m => pure m
        | .error _ => throw "hooq.toml rejected"
  pure { consume := consume, insertRear := insertRearOf, replaceShape := replaceShapeOf,
         parseNameValue := parseNameValueOf, parsePaths := parsePathsOf, store := .ok store }

/-! ## Expanding a file -/

def Item.attrs' : Item → List Attr
  | .fn a _ _ | .impl_ a _ _ | .mod_ a _ _ | .const_ a _ _ | .static_ a _ _ | .trait_ a _ _
  | .mac a _ | .macroRules a _ _ | .other a _ => a

def Item.withAttrs' (a : List Attr) : Item → Item
  | .fn _ s b => .fn a s b
  | .impl_ _ h l => .impl_ a h l
  | .mod_ _ h l => .mod_ a h l
  | .const_ _ h e => .const_ a h e
  | .static_ _ h e => .static_ a h e
  | .trait_ _ h l => .trait_ a h l
  | .mac _ m => .mac a m
  | .macroRules _ n m => .macroRules a n m
  | .other _ t => .other a t

def metaIdents : Meta → List String
  | .path p | .list p _ | .nv p _ => p.segs.map (·.ident)

def isHooqAttr (a : Attr) : Bool :=
  metaIdents a = ["hooq"] || metaIdents a = ["hooq", "hooq"] || metaIdents a = ["hooq_macros", "hooq"]

def isTestItem (i : Item) : Bool := (Item.attrs' i).any fun a => (metaIdents a).getLast? = some "test" || metaIdents a = ["cfg"]

partial def expandItem (env : Env) (src : Src) (i : Item) : Except String String := do
  let as := Item.attrs' i
  if isTestItem i then return ""
  match as.find? isHooqAttr with
  | some a =>
    let args ← match a with
      | .list _ ts => match metaList.run ts with
        | .ok (l, []) => pure l
        | _ => throw "arguments of #[hooq]"
      | _ => pure []
    let rest := (as.takeWhile fun a => !isHooqAttr a) ++ (as.dropWhile fun a => !isHooqAttr a).drop 1
    match hooqImpls env args (Item.withAttrs' rest i) with
    | .ok (uses, i') =>
      pure (String.join (uses.map fun p => s!"#[allow(unused)] use {pathText p} as _;\n") ++ itemText src i')
    | .error e => throw s!"expansion failed: {repr e}"
  | none => match i with
    | .mod_ a n is => do
      let l ← is.mapM (expandItem env src)
      pure s!"{attrsText a}mod {n} \{ {String.join l} }\n"
    | .impl_ a h is => do
      let l ← is.mapM fun i => match i with
        | .fn a s b => expandItem env src (.fn a s b)
        | i => pure (implText src i)
      pure s!"{attrsText a}{h} \{ {String.join l} }\n"
    | i => pure (itemText src i)

/-! ## Imitation of the standard macros -/

def rp (s : String) : List RTok := match lexFile s with
  | .ok l => l
  | .error _ => []

/-- Split at top-level commas. -/
def splitCommas : List RTok → List (List RTok)
  | [] => []
  | ts => ts.foldr (fun t acc => match t, acc with
    | .punct ',' _ _, acc => [] :: acc
    | t, a :: acc => (t :: a) :: acc
    | t, [] => [[t]]) [[]]

/-- Number the arguments of a format string; names are appended. -/
partial def numberFmt (nargs : Nat) (next : Nat) (named : List String) (acc : List Char) :
    List Char → String × List String
  | [] => (String.ofList acc.reverse, named)
  | '{' :: '{' :: r => numberFmt nargs next named ('{' :: '{' :: acc) r
  | '}' :: '}' :: r => numberFmt nargs next named ('}' :: '}' :: acc) r
  | '{' :: r =>
    let inner := r.takeWhile (· != '}')
    let r := r.drop (inner.length + 1)
    let name := inner.takeWhile (· != ':')
    let spec := inner.drop name.length
    let nm := String.ofList name
    if name.isEmpty then
      numberFmt nargs (next + 1) named (('{' :: (toString next).toList ++ spec ++ ['}']).reverse ++ acc) r
    else if name.all Char.isDigit then
      numberFmt nargs next named (('{' :: name ++ spec ++ ['}']).reverse ++ acc) r
    else
      let named := if named.contains nm then named else named ++ [nm]
      let k := nargs + named.idxOf nm
      numberFmt nargs next named (('{' :: (toString k).toList ++ spec ++ ['}']).reverse ++ acc) r
  | c :: r => numberFmt nargs next named (c :: acc) r

mutual
partial def fmtArgs (nl : Bool) (args : List RTok) : List RTok :=
  match splitCommas args with
  | [] => rp (if nl then "format_args!(\"\\n\")" else "format_args!(\"\")")
  | f :: as =>
    let as := as.filter (!·.isEmpty)
    match f with
    | [.lit t _ _ _ _] => match strValue t with
      | some v =>
        let (s, names) := numberFmt as.length 0 [] [] v.toList
        -- a string literal argument of a plain `{}` is merged into the string by the compiler
        let body := rp (escapeStr (if nl then s ++ "\n" else s)) ++ as.flatMap (fun a => rp "," ++ stdMacros a)
          ++ names.flatMap (fun n => rp ("," ++ n))
        rp "format_args!" ++ [.group .paren body 0 0 0 0]
      | none => rp "format_args!" ++ [.group .paren args 0 0 0 0]
    | _ => rp "format_args!" ++ [.group .paren args 0 0 0 0]

partial def callOf (head : String) (args : List RTok) : List RTok :=
  rp head ++ [.group .paren args 0 0 0 0]

partial def stdMacros : List RTok → List RTok
  | [] => []
  | .punct ':' _ _ :: .punct ':' _ _ :: .ident "std" _ _ _ _ :: .punct ':' _ _ :: .punct ':' _ _ ::
      .ident m a b c d :: .punct '!' e f :: r =>
    if m = "eprintln" || m = "println" then stdMacros (.ident m a b c d :: .punct '!' e f :: r)
    else rp "::std::" ++ stdMacros (.ident m a b c d :: .punct '!' e f :: r)
  | .ident "macro_rules" a b c d :: .punct '!' e f :: n :: g :: r =>
    .ident "macro_rules" a b c d :: .punct '!' e f :: n :: g :: stdMacros r
  | .ident "anyhow" _ _ _ _ :: .punct ':' _ _ :: .punct ':' _ _ ::
      .ident "anyhow" _ _ _ _ :: .punct '!' _ _ :: .group _ ts _ _ _ _ :: r =>
    callOf "::anyhow::__private::must_use" [.group .brace (rp "let error =" ++
      callOf "::anyhow::__private::format_err" (fmtArgs false ts) ++ rp "; error") 0 0 0 0] ++ stdMacros r
  | .ident "eyre" _ _ _ _ :: .punct ':' _ _ :: .punct ':' _ _ ::
      .ident "eyre" _ _ _ _ :: .punct '!' _ _ :: .group _ ts _ _ _ _ :: r
  | .ident "eyre" _ _ _ _ :: .punct '!' _ _ :: .group _ ts _ _ _ _ :: r =>
    .group .brace (rp "let error =" ++
      callOf "::eyre::private::format_err" (fmtArgs false ts) ++ rp "; error") 0 0 0 0 :: stdMacros r
  | .ident m a b c d :: .punct '!' e f :: .group dl ts g h i j :: r =>
    match m with
    | "println" | "eprintln" =>
      let fn := if m = "println" then "::std::io::_print" else "::std::io::_eprint"
      .group .brace (callOf fn (fmtArgs true ts) ++ rp ";") 0 0 0 0 :: stdMacros r
    | "format" => callOf "::alloc::__export::must_use"
        [.group .brace (callOf "::alloc::fmt::format" (fmtArgs false ts)) 0 0 0 0] ++ stdMacros r
    | "stringify" => rp (escapeStr (rsText ts)) ++ stdMacros r
    | "vec" =>
      (match splitSemi ts with
      | some (x, n) => callOf "::alloc::vec::from_elem" (stdMacros x ++ rp "," ++ stdMacros n)
      | none => if ts.isEmpty then rp "::alloc::vec::Vec::new()" else callOf "<[_]>::into_vec"
          (callOf "::alloc::boxed::box_new" [.group .bracket (stdMacros ts) 0 0 0 0])) ++ stdMacros r
    | "stmts_with_print" | "stmts_with_print_rev" =>
      (splitOnSemi ts).flatMap (fun g => match splitCommas g with
        | [a, b] =>
          let (x, y) := if m = "stmts_with_print" then (a, b) else (b, a)
          stdMacros (x ++ rp "println!" ++ [.group .paren (rp "\"{}\"," ++ y) 0 0 0 0] ++ rp ";")
        | _ => g) ++ stdMacros (match r with | .punct ';' _ _ :: r => r | r => r)
    | "vecs" => stdMacros (rp "vec!" ++ [.group .bracket ((splitCommas ts).flatMap fun g =>
        rp "vec!" ++ [.group .bracket g 0 0 0 0] ++ rp ",") 0 0 0 0]) ++ stdMacros r
    | "line" => .ident "__line" 0 0 0 0 :: stdMacros r
    | "id" => stdMacros ts ++ stdMacros r
    | "empty" => stdMacros (match r with | .punct ';' _ _ :: r => r | r => r)
    | _ => .ident m a b c d :: .punct '!' e f :: .group dl (stdMacros ts) g h i j :: stdMacros r
  | .group d ts a b c e :: r => .group d (stdMacros ts) a b c e :: stdMacros r
  | t :: r => t :: stdMacros r
partial def splitOnSemi (ts : List RTok) : List (List RTok) :=
  match splitSemi ts with
  | some (a, b) => a :: splitOnSemi b
  | none => if ts.isEmpty then [] else [ts]
partial def splitSemi : List RTok → Option (List RTok × List RTok)
  | [] => none
  | .punct ';' _ _ :: r => some ([], r)
  | t :: r => (splitSemi r).map fun (a, b) => (t :: a, b)
end

/-! ## Comparison -/

partial def flat : List RTok → List String
  | [] => []
  | .group d ts _ _ _ _ :: r => openText d :: flat ts ++ closeText d :: flat r
  | .punct ',' _ _ :: r => flat r
  | .punct '#' _ _ :: .group .bracket (.ident "derive" _ _ _ _ :: _) _ _ _ _ :: r => flat r
  | .punct '#' _ _ :: .group .bracket [.ident "automatically_derived" _ _ _ _] _ _ _ _ :: r =>
    match r.dropWhile (fun t => match t with | .group .brace _ _ _ _ _ => false | _ => true) with
    | _ :: r => flat r
    | [] => []
  | .ident "extern" _ _ _ _ :: .ident "crate" _ _ _ _ :: .ident "test" _ _ _ _ :: _ => []
  | .ident "pub" _ _ _ _ :: .group .paren _ _ _ _ _ :: r => flat r
  | .ident "pub" _ _ _ _ :: r => flat r
  | .punct c _ _ :: r => String.singleton c :: flat r
  | .ident s _ _ _ _ :: r => s :: flat r
  | .lit t _ _ _ _ :: r => (match strValue t with
    | some v => escapeStr v
    | none => t) :: flat r

def squash (s : String) : String :=
  String.ofList (((strValue s).getD s).toList.filter fun c => !c.isWhitespace)

def sameTok (a b : String) : Bool :=
  a = b || (a.startsWith "\"" && squash a = squash b) || (a = "__line" && b.endsWith "u32")
    || (b.endsWith ".rs\"" && a.endsWith ((b.drop 1).toString.replace "<hooq_root>/" "/"))

/-- The first difference.  A body of a closure or a match arm may have become a block. -/
partial def diffAt (n : Nat) (prev : String) (depth : Nat) (extra : List Nat) :
    List String → List String → Option (Nat × List String × List String)
  | [], [] => none
  | as, b :: bs =>
    if b = "}" && extra.head? = some depth then diffAt n prev (depth - 1) (extra.drop 1) as bs
    else match as with
      | a :: as' =>
        if sameTok a b then
          diffAt (n + 1) a (if b = "{" then depth + 1 else if b = "}" then depth - 1 else depth) extra as' bs
        else if a = "serde_json" && as'.take 4 = [":", ":", "json", "!"] then
          -- expanded by another crate: left out of the comparison
          diffAt n prev depth extra (as'.dropWhile (· != ";")) ((bs.dropWhile (· != "object")).dropWhile (· != "}") |>.drop 2)
        else if b = "{" && (prev = "|" || prev = ">") then diffAt n prev (depth + 1) ((depth + 1) :: extra) as bs
        else some (n, a :: as', b :: bs)
      | [] => some (n, [], b :: bs)
  | as, [] => some (n, as, [])

/-- Number of string literals that agree only up to white space. -/
def looseCount (a b : List String) : Nat := ((a.zip b).filter fun (x, y) => x != y).length

def dropHeader (s : String) : String :=
  let cut (p : String) (s : String) : String := match s.splitOn p with
    | _ :: r@(_ :: _) => p.intercalate r
    | _ => s
  let s := cut "#![feature(prelude_import)]" s
  let s := cut "#[prelude_import]\nuse std::prelude::rust_2024::*;" (cut "#[macro_use]\nextern crate std;" s)
  cut "#[macro_use]\nextern crate std;" (cut "extern crate std;\n" s)

/-- Expand and compare. -/
def checkPair (consume : Bool) (toml : Option String) (file src expanded : String) :
    Except String (Nat × Nat) := do
  let toks ← lexFile src
  let env ← runEnv consume toml
  let tts := toks.map (RTok.toTT file)
  let ((ia, is), rest) ← (do let a ← innerAttrs; pure (a, ← items) : P (List Attr × List Item)).run tts
  if !rest.isEmpty then throw "leftover tokens"
  let texts ← is.mapM (expandItem env { file := file, toks := toks })
  let body := String.join (ia.map fun a => s!"#![{metaText a}] ") ++ String.join texts
  let want ← lexFile (dropHeader expanded)
  let got ← lexFile (match want with
    | .ident "mod" _ _ _ _ :: .ident m _ _ _ _ :: .group .brace _ _ _ _ _ :: [] => s!"mod {m} \{ {body} }"
    | _ => body)
  let g := flat (stdMacros got)
  let w := flat want
  match diffAt 0 "" 0 [] g w with
  | none => pure (g.length, looseCount g w)
  | some (n, a, b) =>
    throw s!"token {n}\n  model: {" ".intercalate ((g.drop (n - 12)).take 12)} >>> {" ".intercalate (a.take 25)}\n  repo:  {" ".intercalate ((w.drop (n - 12)).take 12)} >>> {" ".intercalate (b.take 25)}"

/-! ## The helper macros on their own -/

def oTok : RTok → TT
  | .ident s _ _ _ _ => .ident s .callSite
  | .punct c _ _ => .punct c .callSite
  | .lit t _ _ _ _ => .lit (.other t) .callSite
  | .group _ _ _ _ _ _ => .group .paren [] .callSite

/-- What a literal means. -/
def optLit : Lit → OptLit
  | .other t => match strValue t, t.toNat? with
    | some v, _ => .str v
    | none, some n => .int (some n)
    | none, none => .other
  | _ => .other

/-- Whether a literal is a number. -/
def optNumber : Lit → Bool
  | .other t => t.front.isDigit
  | _ => false

/-- One call of a helper macro. -/
def helperCall (m : String) (ts : List RTok) : Option (List Char) :=
  let read (rest : List TT) : Option PExpr :=
    let rs := ts.drop (ts.length - rest.length)
    match align false false rs rs with
    | some ps => some { toks := ps, startLine := (rs.head?.map (·.start.1)).getD 0,
                        endLine := (ps.getLast?.map PTok.endLine).getD 0 }
    | none => none
  let reader : OptReader PExpr := { lit := optLit, number := optNumber, expr := read }
  match m with
  | "pretty_stringify" => prettyMacro reader (ts.map oTok)
  | "one_line_stringify" => oneLineMacro Char.isWhitespace spell reader (ts.map oTok)
  | "excerpted_pretty_stringify" => excerptMacro spell reader (ts.map oTok)
  | _ => none

/-- The calls in a file, each with the name of the snapshot that follows. -/
partial def helperCalls (last : Option (List Char)) : List RTok → List (String × List Char)
  | [] => []
  | .ident "assert_snapshot" _ _ _ _ :: .punct '!' _ _ :: .group _ (.lit n _ _ _ _ :: _) _ _ _ _ :: r =>
    match last, strValue n with
    | some l, some n => (n, l) :: helperCalls none r
    | _, _ => helperCalls none r
  | .ident m _ _ _ _ :: .punct '!' _ _ :: .group _ ts _ _ _ _ :: r => helperCalls (helperCall m ts) r
  | .group _ ts _ _ _ _ :: r => helperCalls none ts ++ helperCalls none r
  | _ :: r => helperCalls last r

def trimEnds (s : List Char) : List Char :=
  ((s.dropWhile (· == '\n')).reverse.dropWhile Char.isWhitespace).reverse

end Hooq.Conform
