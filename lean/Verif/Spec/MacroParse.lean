import Verif.Model.MacroParse

/-!
# What the list in a macro body should be
-/

namespace Hooq

/-- The separator of an element. -/
def Ev.sep : Ev → Sep
  | .file _ _ s | .item _ s | .expr _ s | .stmt _ s => s

/-- The element without its separator. -/
def Ev.piece : Ev → EvPiece
  | .file a l _ => .file a l
  | .item i _ => .item i
  | .expr e _ => .expr e
  | .stmt s _ => .stmt s

/-- The four ways to read a piece, in the order of preference. -/
def SynParsers.ways (P : SynParsers) : List (List TT → Option (EvPiece × List TT)) :=
  [fun ts => (P.file ts).map fun x => (.file x.1.1 x.1.2, x.2),
   fun ts => (P.item ts).map fun x => (.item x.1, x.2),
   fun ts => (P.expr ts).map fun x => (.expr x.1, x.2),
   fun ts => (P.stmt ts).map fun x => (.stmt x.1, x.2)]

/-- The rest begins with a separator or is empty. -/
def Stops (r : List TT) : Prop := r = [] ∨ ∃ t r', r = t :: r' ∧ (t.isPunct ',' = true ∨ t.isPunct ';' = true)

/-- `p` is what is read from `ts`, leaving `r`: the first way that reads something up to a
separator or the end. -/
def Chosen (P : SynParsers) (ts : List TT) (p : EvPiece) (r : List TT) : Prop :=
  ∃ before way after, P.ways = before ++ way :: after ∧ way ts = some (p, r) ∧ Stops r ∧
    ∀ w ∈ before, ∀ p' r', w ts = some (p', r') → ¬ Stops r'

/-- The elements of a body: nothing, a last piece, or a piece, a separator and more. -/
inductive BodyOf (P : SynParsers) : List TT → List Ev → Prop
  | nil : BodyOf P [] []
  | last {ts : List TT} {v : Ev} : ts ≠ [] → Chosen P ts v.piece [] → v.sep = .none → BodyOf P ts [v]
  | comma {ts r : List TT} {t : TT} {v : Ev} {vs : List Ev} : ts ≠ [] → t.isPunct ',' = true →
      Chosen P ts v.piece (t :: r) → v.sep = .comma → BodyOf P r vs → BodyOf P ts (v :: vs)
  | semi {ts r : List TT} {t : TT} {v : Ev} {vs : List Ev} : ts ≠ [] → t.isPunct ';' = true →
      Chosen P ts v.piece (t :: r) → v.sep = .semi → BodyOf P r vs → BodyOf P ts (v :: vs)

/-- No parser succeeds without reading a token. -/
def SynParsers.Reading (P : SynParsers) : Prop :=
  ∀ w ∈ P.ways, ∀ ts p r, w ts = some (p, r) → r.length < ts.length

/-- Printing what was parsed gives the tokens that were read.  `pr` prints a piece. -/
def SynParsers.Faithful (P : SynParsers) (pr : EvPiece → List TT) : Prop :=
  ∀ w ∈ P.ways, ∀ ts p r, w ts = some (p, r) → ts = pr p ++ r

/-- The tokens `ts` are the separator. -/
def Sep.Prints : Sep → List TT → Prop
  | .none, ts => ts = []
  | .comma, ts => ∃ t, ts = [t] ∧ t.isPunct ',' = true
  | .semi, ts => ∃ t, ts = [t] ∧ t.isPunct ';' = true

/-- The tokens `ts` are the elements in order with their separators. -/
inductive Spelled (pr : EvPiece → List TT) : List Ev → List TT → Prop
  | nil : Spelled pr [] []
  | cons {v : Ev} {vs : List Ev} {s r : List TT} : v.sep.Prints s → Spelled pr vs r →
      Spelled pr (v :: vs) (pr v.piece ++ s ++ r)

end Hooq
