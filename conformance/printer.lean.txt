import Verif.Model.Root
namespace Hooq
namespace Pr
def sq (s : String) : String := "\"" ++ (s.replace "\\" "\\\\" |>.replace "\"" "\\\"" |>.replace "\n" "\\n") ++ "\""
def dl : Delim → String × String
  | .paren => ("(", ")") | .brace => ("{", "}") | .bracket => ("[", "]") | .none => ("", "")
def li : Lit → String
  | .str s => sq s | .int n => toString n | .usize n => toString n ++ "usize" | .other t => t
def pa (p : Path) : String := (if p.leading then ":: " else "") ++ " :: ".intercalate (p.segs.map (·.ident))
def bnds (l : List (String × Value)) : String :=
  ":: std :: collections :: HashMap :: from ( [ " ++ " , ".intercalate (l.map fun x => "( :: std :: string :: ToString :: to_string ( " ++ sq x.1 ++ " ) , { let expr = _ ; let value : :: std :: rc :: Rc < dyn :: std :: any :: Any > = :: std :: rc :: Rc :: new ( " ++ x.2.text ++ " ) ; :: hooq :: BindingPayload { expr , value } } ) ") ++ " ] )"
partial def tt (src arg : String) : TT → String
  | .ident s _ => s
  | .punct c _ => c.toString
  | .lit l _ => li l
  | .group d ts _ => (dl d).1 ++ " " ++ " ".intercalate (ts.map (tt src arg)) ++ " " ++ (dl d).2
  | .exprHole _ => arg
  | .sourceHole _ => src
  | .valueHole v _ => v.text
  | .bindingsHole l _ => bnds l
  | .metaHole m _ => ":: hooq :: HooqMeta { line : " ++ toString m.line ++ "usize , column : " ++ toString m.col ++ "usize , path : " ++ sq m.path ++ ", file : " ++ sq m.file ++ " , source_str : " ++ sq src ++ " , count : " ++ sq m.count ++ " , bindings : " ++ bnds m.bindings ++ " }"
def tts (src arg : String) (l : List TT) : String := " ".intercalate (l.map (tt src arg))
def at1 (m : Attr) : String := "# [ " ++ (match m with
  | .path p => pa p
  | .list p ts => pa p ++ " ( " ++ tts "" "" ts ++ " )"
  | .nv p v => pa p ++ " = " ++ v.text) ++ " ] "
def ats (l : List Attr) : String := String.join (l.map at1)
def sep : Sep → String | .none => "" | .comma => " ," | .semi => " ;"
def com (l : List String) : String := " , ".intercalate l
def lab (l : String) : String := if l = "" then "" else l ++ " : "
mutual
partial def ex : Expr → String
  | .mk a _ k => ats a ++ kd k
partial def blk (l : List Stmt) : String := "{ " ++ " ".intercalate (l.map st) ++ " }"
partial def opt : Option Expr → String
  | none => "" | some e => " " ++ ex e
partial def kd : ExprKind → String
  | .array l => "[ " ++ com (l.map ex) ++ " ]"
  | .assign l r => ex l ++ " = " ++ ex r
  | .async b => "async " ++ blk b
  | .await e => ex e ++ " . await"
  | .binary l o r => ex l ++ " " ++ o ++ " " ++ ex r
  | .block l b => lab l ++ blk b
  | .break_ l v => "break " ++ l ++ opt v
  | .call f l => ex f ++ " ( " ++ com (l.map ex) ++ " )"
  | .cast e t => ex e ++ " as " ++ t
  | .closure s b => ((s.text.dropEnd 3).toString) ++ ex b
  | .const_ b => "const " ++ blk b
  | .continue_ l => "continue " ++ l
  | .field e m => ex e ++ " . " ++ m
  | .forLoop h e b => h ++ " in " ++ ex e ++ " " ++ blk b
  | .group e => ex e
  | .if_ c t e => "if " ++ ex c ++ " " ++ blk t ++ (match e with | none => "" | some e => " else " ++ ex e)
  | .index e i => ex e ++ " [ " ++ ex i ++ " ]"
  | .infer => "_"
  | .let_ p e => "let " ++ p ++ " = " ++ ex e
  | .lit l => li l
  | .loop l b => lab l ++ "loop " ++ blk b
  | .mac m => mc m
  | .match_ e l => "match " ++ ex e ++ " { " ++ " ".intercalate (l.map arm) ++ " }"
  | .methodCall r n l => ex r ++ " . " ++ n ++ " ( " ++ com (l.map ex) ++ " )"
  | .paren e => "( " ++ ex e ++ " )"
  | .path p => pa p
  | .range a o b => opt a ++ " " ++ o ++ opt b
  | .rawAddr e => "& raw " ++ ex e
  | .reference e => "& " ++ ex e
  | .repeat_ e n => "[ " ++ ex e ++ " ; " ++ ex n ++ " ]"
  | .ret v => "return" ++ opt v
  | .struct_ h fs r => h ++ " { " ++ com (fs.map fld) ++ (match r with | none => "" | some e => " , .. " ++ ex e) ++ " }"
  | .try_ e _ => ex e ++ " ?"
  | .tryBlock b => "try " ++ blk b
  | .tuple l => "( " ++ com (l.map ex) ++ " )"
  | .unary o e => o ++ " " ++ ex e
  | .unsafe_ b => "unsafe " ++ blk b
  | .verbatim ts => tts "" "" ts
  | .while_ l c b => lab l ++ "while " ++ ex c ++ " " ++ blk b
  | .yield_ v => "yield" ++ opt v
  | .hooked hk arg src => match hk.mode with
    | .insert => ex arg ++ " " ++ tts (ex src) (ex arg) hk.toks
    | .replace => tts (ex src) (ex arg) hk.toks
partial def st : Stmt → String
  | .localInit a p e d => ats a ++ "let " ++ p ++ " = " ++ ex e ++ (match d with | none => "" | some d => " else " ++ ex d) ++ " ;"
  | .localDecl a p => ats a ++ "let " ++ p ++ " ;"
  | .item i => it i
  | .expr e s => ex e ++ (if s then " ;" else "")
  | .mac a m s => ats a ++ mc m ++ (if s then " ;" else "")
partial def arm : Arm → String
  | .mk a p g b => ats a ++ p ++ (match g with | none => "" | some g => " if " ++ ex g) ++ " => " ++ ex b ++ " ,"
partial def fld : FieldVal → String
  | .mk a m e => ats a ++ m ++ " : " ++ ex e
partial def mc : Mac → String
  | .mk p d b => pa p ++ " ! " ++ (dl d).1 ++ " " ++ (match b with
    | .raw ts => tts "" "" ts
    | .parsed evs => " ".intercalate (evs.map ev)) ++ " " ++ (dl d).2
partial def ev : Ev → String
  | .file _ is s => " ".intercalate (is.map it) ++ sep s
  | .item i s => it i ++ sep s
  | .expr e s => ex e ++ sep s
  | .stmt x s => st x ++ sep s
partial def it : Item → String
  | .fn a s b => ats a ++ s.text ++ " " ++ blk b
  | .impl_ a h l => ats a ++ h ++ " { " ++ " ".intercalate (l.map ii) ++ " }"
  | .mod_ a n l => ats a ++ n ++ " { " ++ " ".intercalate (l.map it) ++ " }"
  | .const_ a h e => ats a ++ h ++ " = " ++ ex e ++ " ;"
  | .static_ a h e => ats a ++ h ++ " = " ++ ex e ++ " ;"
  | .trait_ a h l => ats a ++ h ++ " { " ++ " ".intercalate (l.map ti) ++ " }"
  | .mac a (.mk p d b) => ats a ++ mc (.mk p d b) ++ (if d = .brace then "" else " ;")
  | .macroRules a n (.mk _ d b) => ats a ++ "macro_rules ! " ++ n ++ " " ++ (dl d).1 ++ " " ++ (match b with | .raw ts => tts "" "" ts | _ => "?") ++ " " ++ (dl d).2
  | .other a t => ats a ++ t
partial def ii : ImplItem → String
  | .fn a s b => ats a ++ s.text ++ " " ++ blk b
  | .const_ a h e => ats a ++ h ++ " = " ++ ex e ++ " ;"
  | .mac a m => ats a ++ mc m
  | .other a t => ats a ++ t
partial def ti : TraitItem → String
  | .fn a s b => ats a ++ s.text ++ " " ++ blk b
  | .const_ a h e => ats a ++ h ++ " = " ++ ex e ++ " ;"
  | .mac a m => ats a ++ mc m
  | .other a t => ats a ++ t
end
def root (x : Except Err (List Path × Item)) : String :=
  match x with
  | .error e => "ERROR " ++ reprStr e
  | .ok (ps, i) => String.join (ps.map fun p => "# [ allow ( unused ) ] use " ++ pa p ++ " as _ ; ") ++ it i
end Pr
/-- comma separated absolute or relative paths -/
partial def parsePs : List TT → Option (List Path)
  | [] => some []
  | ts =>
    let rec go (lead : Bool) (acc : List Seg) : List TT → Option (List Path)
      | .ident s _ :: .punct ':' _ :: .punct ':' _ :: r => go lead (acc ++ [{ ident := s }]) r
      | [.ident s _] => some [⟨lead, acc ++ [{ ident := s }]⟩]
      | .ident s _ :: .punct ',' _ :: r => (parsePs r).map (⟨lead, acc ++ [{ ident := s }]⟩ :: ·)
      | _ => none
    match ts with
    | .punct ':' _ :: .punct ':' _ :: r => go true [] r
    | r => go false [] r
/-- `name = tokens` -/
def parseNV : List TT → Option (Path × Value)
  | .ident s _ :: .punct '=' _ :: r => some (Path.ofIdents [s], ⟨.other, Pr.tts "" "" r⟩)
  | _ => none
def cenvWith (consume : Bool) (store : Except String FlavorMap) : Env where
  consume := consume
  insertRear := fun _ => some .whole
  replaceShape := fun _ ts => match ts with | [.exprHole _] => some .same | _ => some (.other .whole)
  parseNameValue := parseNV
  parsePaths := parsePs
  store := store
def helpersTok : List TT := tkAbs ["HELPERS"]
def cenv : Env := cenvWith false (.ok (presetFlavors false helpersTok ⟨true, true, true, true⟩))
end Hooq
