import Verif.Spec.Store

/-!
# Spelling and lookup of flavors
-/

namespace Hooq

/-! ## Spelling -/

/-- A string read from the left: `none` for a separator (`.` or `::`), `some c` for any
other character. -/
def sepScan : List Char → List (Option Char)
  | [] => []
  | '.' :: cs => none :: sepScan cs
  | ':' :: ':' :: cs => none :: sepScan cs
  | c :: cs => some c :: sepScan cs

/-- Some component between separators is empty. -/
def EmptyComponent (l : List (Option Char)) : Prop :=
  l = [] ∨ l.head? = some none ∨ l.getLast? = some none ∨ ∃ a b, l = a ++ none :: none :: b

/-- A separator. -/
inductive NameSep
  | dot | colons
deriving DecidableEq, Repr

/-- Text of a separator. -/
def NameSep.text : NameSep → String
  | .dot => "."
  | .colons => "::"

/-- `first` followed by components, each after its own separator. -/
def spell (first : String) (rest : List (NameSep × String)) : String :=
  rest.foldl (fun acc x => acc ++ x.1.text ++ x.2) first

/-- A component as an identifier: not empty, no separator character. -/
def PlainName (s : String) : Prop := s ≠ "" ∧ ∀ c ∈ s.toList, c ≠ ':' ∧ c ≠ '.'

/-- A component of a flavor path in a string: not empty and without a separator in it. -/
def NameOk (c : List Char) : Prop := c ≠ [] ∧ '.' ∉ c ∧ ∀ a b, c ≠ a ++ ':' :: ':' :: b

/-- The text spells the components: they are separated by `.` or `::`, and of three colons
the first two are the separator. -/
inductive SpelledAs : List Char → List (List Char) → Prop
  | last {c : List Char} : NameOk c → SpelledAs c [c]
  | dot {c s : List Char} {l : List (List Char)} : NameOk c → SpelledAs s l → SpelledAs (c ++ '.' :: s) (c :: l)
  | colons {c s : List Char} {l : List (List Char)} : NameOk c → c.getLast? ≠ some ':' → SpelledAs s l →
      SpelledAs (c ++ ':' :: ':' :: s) (c :: l)

/-- `path.join("::")` as in the message of `get_flavor`. -/
def displayPath (l : List String) : String := "::".intercalate l

/-! ## Lookup -/

/-- The flavor `f` is reached by following the path. -/
inductive Reaches : FlavorMap → List String → Flavor → Prop
  | top {m : FlavorMap} {n : String} {f : Flavor} : (n, f) ∈ m → Reaches m [n] f
  | sub {m : FlavorMap} {n : String} {f g : Flavor} {path : List String} :
      (n, f) ∈ m → Reaches f.subs path g → Reaches m (n :: path) g

mutual
/-- No name twice among the sub-flavors, at any depth. -/
def Flavor.Uniq : Flavor → Prop
  | .mk _ subs => (AMap.keys subs).Nodup ∧ FlavorsUniq subs
/-- All flavors of the list are `Uniq`. -/
def FlavorsUniq : List (String × Flavor) → Prop
  | [] => True
  | (_, f) :: rest => f.Uniq ∧ FlavorsUniq rest
end

/-- A flavor map: no name twice, at any depth. -/
def UniqMap (m : FlavorMap) : Prop := (AMap.keys m).Nodup ∧ FlavorsUniq m

end Hooq
