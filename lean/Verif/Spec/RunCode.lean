import Verif.Model.Helpers

/-!
# What the code behind `$bindings` and `$hooq_meta` computes

The meaning of a small part of Rust, read from the tokens: literals, local variables,
calls of three functions of the standard library, pairs, arrays, blocks with `let`, and
the two structs of `hooq_helpers`.  The expressions of the user are evaluated by a
parameter.  Spans are not looked at.
-/

namespace Hooq

/-- A value that the generated code handles. -/
inductive RVal (Ty : Nat → Type)
  /-- a `&'static str` -/
  | slice (s : String)
  /-- a `String` -/
  | owned (s : String)
  /-- a `usize` -/
  | num (n : Nat)
  /-- a value of the user's code -/
  | any (d : Dyn Ty)
  /-- an `Rc<dyn Any>` -/
  | rc (d : Dyn Ty)
  | pair (a b : RVal Ty)
  | array (l : List (RVal Ty))
  | payload (p : Payload Ty)
  | table (m : AMap (Payload Ty))
  /-- a `HooqMeta`, with its `source_str` -/
  | record (src : String) (m : HooqMeta Ty)

/-- What running the user's code needs: how an expression is evaluated, and which value a
`String` or another value of the generated code is for the user's code. -/
structure Machine (Ty : Nat → Type) where
  eval : Scope Ty → Value → Dyn Ty
  str : String → Dyn Ty
  other : RVal Ty → Dyn Ty

/-- A value as the user's code sees it. -/
def Machine.asAny {Ty : Nat → Type} (M : Machine Ty) : RVal Ty → Dyn Ty
  | .any d => d
  | .owned s => M.str s
  | v => M.other v

/-- The local variables of the generated code and, behind them, those of the user. -/
abbrev Locals (Ty : Nat → Type) := String → Option (RVal Ty)

/-- The variables as the user's code sees them. -/
def Locals.scope {Ty : Nat → Type} (M : Machine Ty) (L : Locals Ty) : Scope Ty :=
  fun x => (L x).map M.asAny

/-- Only the variables of the user. -/
def Locals.ofScope {Ty : Nat → Type} (sc : Scope Ty) : Locals Ty := fun x => (sc x).map .any

/-- The variables behind `let x = v;`. -/
def Locals.set {Ty : Nat → Type} (L : Locals Ty) (x : String) (v : RVal Ty) : Locals Ty :=
  fun y => if y = x then some v else L y

/-- `::a::b::c`. -/
inductive AbsPath : List TT → List String → Prop
  | last {x : String} {s1 s2 s3 : Span} : AbsPath [.punct ':' s1, .punct ':' s2, .ident x s3] [x]
  | more {x : String} {s1 s2 s3 : Span} {ts : List TT} {xs : List String} :
      AbsPath ts xs → AbsPath (.punct ':' s1 :: .punct ':' s2 :: .ident x s3 :: ts) (x :: xs)

/-- `::std::rc::Rc<dyn ::std::any::Any>`. -/
inductive AnyType : List TT → Prop
  | mk {p q : List TT} {s1 s2 s3 : Span} : AbsPath p ["std", "rc", "Rc"] → AbsPath q ["std", "any", "Any"] →
      AnyType (p ++ .punct '<' s1 :: .ident "dyn" s2 :: (q ++ [.punct '>' s3]))

/-- What a function of the standard library gives. -/
inductive Applies {Ty : Nat → Type} (M : Machine Ty) : List String → RVal Ty → RVal Ty → Prop
  | toString {s : String} : Applies M ["std", "string", "ToString", "to_string"] (.slice s) (.owned s)
  | rc {v : RVal Ty} : Applies M ["std", "rc", "Rc", "new"] v (.rc (M.asAny v))
  | table {l : List (String × Payload Ty)} :
      Applies M ["std", "collections", "HashMap", "from"]
        (.array (l.map fun e => .pair (.owned e.1) (.payload e.2))) (.table (AMap.extend [] l))

/-- The struct with some fields, given in any order. -/
inductive Makes {Ty : Nat → Type} : List String → List (String × RVal Ty) → RVal Ty → Prop
  | payload {s : String} {d : Dyn Ty} {fs : List (String × RVal Ty)} :
      fs.Perm [("expr", .owned s), ("value", .rc d)] → Makes ["hooq", "BindingPayload"] fs (.payload ⟨s, d⟩)
  | record {line column : Nat} {path file src count : String} {m : AMap (Payload Ty)}
      {fs : List (String × RVal Ty)} :
      fs.Perm [("line", .num line), ("column", .num column), ("path", .slice path), ("file", .slice file),
        ("source_str", .slice src), ("count", .slice count), ("bindings", .table m)] →
      Makes ["hooq", "HooqMeta"] fs (.record src ⟨line, column, path, file, count, m⟩)

mutual
/-- The value of an expression. -/
inductive Computes {Ty : Nat → Type} (M : Machine Ty) : Locals Ty → List TT → RVal Ty → Prop
  | str {L : Locals Ty} {s : String} {sp : Span} : Computes M L [.lit (.str s) sp] (.slice s)
  | num {L : Locals Ty} {n : Nat} {sp : Span} : Computes M L [.lit (.usize n) sp] (.num n)
  | var {L : Locals Ty} {x : String} {sp : Span} {v : RVal Ty} : L x = some v → Computes M L [.ident x sp] v
  /-- an expression of the user -/
  | user {L : Locals Ty} {e : Value} {sp : Span} :
      Computes M L [.valueHole e sp] (.any (M.eval (L.scope M) e))
  /-- `f(x)` -/
  | call {L : Locals Ty} {p ts : List TT} {f : List String} {v w : RVal Ty} {sp : Span} :
      AbsPath p f → Computes M L ts v → Applies M f v w → Computes M L (p ++ [.group .paren ts sp]) w
  /-- `S { .. }` -/
  | make {L : Locals Ty} {p ts : List TT} {f : List String} {fs : List (String × RVal Ty)} {w : RVal Ty}
      {sp : Span} :
      AbsPath p f → Fields M L ts fs → Makes f fs w → Computes M L (p ++ [.group .brace ts sp]) w
  /-- `(a, b)` -/
  | pair {L : Locals Ty} {ts us : List TT} {a b : RVal Ty} {sp sp' : Span} :
      Computes M L ts a → Computes M L us b → Computes M L [.group .paren (ts ++ .punct ',' sp :: us) sp'] (.pair a b)
  /-- `[a, b, ..]` -/
  | array {L : Locals Ty} {ts : List TT} {vs : List (RVal Ty)} {sp : Span} :
      Elements M L ts vs → Computes M L [.group .bracket ts sp] (.array vs)
  /-- `{ .. }` -/
  | block {L : Locals Ty} {ts : List TT} {v : RVal Ty} {sp : Span} :
      Body M L ts v → Computes M L [.group .brace ts sp] v
/-- The values of the elements of an array; a comma behind the last one is allowed. -/
inductive Elements {Ty : Nat → Type} (M : Machine Ty) : Locals Ty → List TT → List (RVal Ty) → Prop
  | nil {L : Locals Ty} : Elements M L [] []
  | one {L : Locals Ty} {ts : List TT} {v : RVal Ty} : Computes M L ts v → Elements M L ts [v]
  | cons {L : Locals Ty} {ts us : List TT} {v : RVal Ty} {vs : List (RVal Ty)} {sp : Span} :
      Computes M L ts v → Elements M L us vs → Elements M L (ts ++ .punct ',' sp :: us) (v :: vs)
/-- The fields of a struct literal; a comma behind the last one is allowed. -/
inductive Fields {Ty : Nat → Type} (M : Machine Ty) : Locals Ty → List TT → List (String × RVal Ty) → Prop
  | nil {L : Locals Ty} : Fields M L [] []
  | one {L : Locals Ty} {x : String} {ts : List TT} {v : RVal Ty} {s1 s2 : Span} :
      Computes M L ts v → Fields M L (.ident x s1 :: .punct ':' s2 :: ts) [(x, v)]
  | cons {L : Locals Ty} {x : String} {ts us : List TT} {v : RVal Ty} {fs : List (String × RVal Ty)}
      {s1 s2 s3 : Span} :
      Computes M L ts v → Fields M L us fs →
      Fields M L (.ident x s1 :: .punct ':' s2 :: (ts ++ .punct ',' s3 :: us)) ((x, v) :: fs)
  | shortOne {L : Locals Ty} {x : String} {v : RVal Ty} {s1 : Span} :
      L x = some v → Fields M L [.ident x s1] [(x, v)]
  | short {L : Locals Ty} {x : String} {us : List TT} {v : RVal Ty} {fs : List (String × RVal Ty)}
      {s1 s2 : Span} :
      L x = some v → Fields M L us fs → Fields M L (.ident x s1 :: .punct ',' s2 :: us) ((x, v) :: fs)
/-- The value of the inside of a block. -/
inductive Body {Ty : Nat → Type} (M : Machine Ty) : Locals Ty → List TT → RVal Ty → Prop
  | last {L : Locals Ty} {ts : List TT} {v : RVal Ty} : Computes M L ts v → Body M L ts v
  /-- `let x = e;` -/
  | bind {L : Locals Ty} {x : String} {ts us : List TT} {w v : RVal Ty} {s1 s2 s3 s4 : Span} :
      Computes M L ts w → Body M (L.set x w) us v →
      Body M L (.ident "let" s1 :: .ident x s2 :: .punct '=' s3 :: (ts ++ .punct ';' s4 :: us)) v
  /-- `let x: Rc<dyn Any> = e;` -/
  | bindAny {L : Locals Ty} {x : String} {ty ts us : List TT} {d : Dyn Ty} {v : RVal Ty}
      {s1 s2 s3 s4 s5 : Span} :
      AnyType ty → Computes M L ts (.rc d) → Body M (L.set x (.rc d)) us v →
      Body M L (.ident "let" s1 :: .ident x s2 :: .punct ':' s3 ::
        (ty ++ .punct '=' s4 :: (ts ++ .punct ';' s5 :: us))) v
end

end Hooq
