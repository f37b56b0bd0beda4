import Verif.Spec.Batch
import Verif.Props.Chain
import Verif.Props.Recipes

/-!
# A parser that meets the assumptions

What `syn` accepts is a parameter (`Env.insertRear`, `Env.replaceShape`), and C68, C86 and C103 assume
something about it.  Here is a computable reader of chains of calls for which all of that holds at once, so
that these claims are about something.  It is no model of `syn`, which accepts more.
-/

namespace Hooq

namespace Reader

/-- Where the tokens stand: an expression, arguments, the body of a block. -/
inductive Level where
  | expr | args | stmts
deriving DecidableEq

/-- What was read last. -/
inductive Seen where
  | first | need | bar | name | word | colon | colons | bang | dot | done | low | letKw | letName
deriving DecidableEq

/-- What a delimited expression contains, and what is seen then. -/
abbrev Step := Option (Seen × Option Level)

/-- The next token is the beginning of an expression. -/
def operand : TT → Step
  | .ident x _ => if x ≠ "" ∧ x ∉ otherKeywords then some (.word, none) else none
  | .punct c _ => if c = ':' then some (.colon, none) else if c = '|' then some (.bar, none) else none
  | .lit _ _ => some (.done, none)
  | .group d _ _ => match d with
    | .paren => some (.done, some .expr)
    | .brace => some (.low, some .stmts)
    | _ => none
  | .exprHole _ | .sourceHole _ | .valueHole _ _ | .bindingsHole _ _ | .metaHole _ _ => some (.done, none)

/-- The next token stands behind an expression that cannot be continued. -/
def behind (l : Level) : TT → Step
  | .punct c _ => if c = ',' ∧ l = .args ∨ c = ';' ∧ l = .stmts then some (.first, none) else none
  | _ => none

/-- The next token stands behind an expression. -/
def after (l : Level) : TT → Step
  | .punct c s =>
    if c = '.' then some (.dot, none) else if c = '?' then some (.done, none) else behind l (.punct c s)
  | .group d _ _ => match d with
    | .paren => some (.done, some .args)
    | .bracket => some (.done, some .expr)
    | _ => none
  | _ => none

def step (l : Level) : Seen → TT → Step
  | .first, t => match t with
    | .ident x s => if x = "let" ∧ l = .stmts then some (.letKw, none) else operand (.ident x s)
    | _ => operand t
  | .need, t => operand t
  | .bar, t => match t with
    | .punct c _ => if c = '|' then some (.need, none) else none
    | .ident _ _ => some (.name, none)
    | _ => none
  | .name, t => match t with | .punct c _ => if c = '|' then some (.need, none) else none | _ => none
  | .word, t => match t with
    | .punct c s =>
      if c = ':' then some (.colon, none) else if c = '!' then some (.bang, none) else after l (.punct c s)
    | _ => after l t
  | .colon, t => match t with | .punct c _ => if c = ':' then some (.colons, none) else none | _ => none
  | .colons, t => match t with
    | .ident x _ => if x ≠ "" ∧ x ∉ otherKeywords then some (.word, none) else none
    | _ => none
  | .bang, t => match t with
    | .group d _ _ => if d = .paren ∨ d = .bracket then some (.done, none) else none
    | _ => none
  | .dot, t => match t with | .ident _ _ => some (.done, none) | _ => none
  | .done, t => after l t
  | .low, t => behind l t
  | .letKw, t => match t with | .ident _ _ => some (.letName, none) | _ => none
  | .letName, t => match t with | .punct c _ => if c = '=' then some (.need, none) else none | _ => none

/-- The text may end here. -/
def final (l : Level) : Seen → Bool
  | .word | .done | .low => true
  | .first => l ≠ .expr
  | _ => false

def start : Level → Seen
  | .expr => .need
  | _ => .first

mutual
/-- Read what is inside the token. -/
def within : TT → Option Level → Bool
  | .group _ ts _, some l => run ts l (start l)
  | _, _ => true
/-- Read the tokens. -/
def run : List TT → Level → Seen → Bool
  | [], l, st => final l st
  | t :: ts, l, st => match step l st t with
    | none => false
    | some (st', i) => within t i && run ts l st'
end

/-- What stands behind an expression. -/
def rear (ts : List TT) : Option Rear := if run ts .expr .done then some .whole else none

/-- An expression by itself. -/
def shape (ts : List TT) : Option Shape := match ts with
  | [.exprHole _] => some .same
  | _ => if run ts .expr .need then some (.other .whole) else none

/-! ## Chains of calls are read -/

theorem run_cons {l : Level} {st st' : Seen} {i : Option Level} {t : TT} {ts : List TT}
    (h : step l st t = some (st', i)) : run (t :: ts) l st = (within t i && run ts l st') := by
  simp [run, h]

theorem run_path {p : List TT} (h : PathForm p) (l : Level) (r : List TT) {st : Seen}
    (hs : st = .first ∨ st = .need) : run (p ++ r) l st = run r l .word := by
  induction h generalizing r with
  | @name x s hx =>
    have hx' : operand (.ident x s) = some (.word, none) := by simp [operand, hx.1, hx.2]
    have : x ≠ "let" := by rintro rfl; exact absurd hx.2 (by decide)
    rcases hs with rfl | rfl <;> simp [run, step, hx', within, this]
  | @absolute x s1 s2 s3 hx =>
    rcases hs with rfl | rfl <;> simp [run, step, operand, within, hx.1, hx.2]
  | @more x p s1 s2 s3 hp hx ih =>
    rw [List.append_assoc, ih]
    simp [run, step, within, hx.1, hx.2]

/-- An expression, then more. -/
def Complete (st : Seen) : Prop := st = .word ∨ st = .done

theorem emitted_var {ts : List TT} (h : emitted.var ts) (l : Level) (r : List TT) {st : Seen}
    (hs : st = .first ∨ st = .need) : run (ts ++ r) l st = run r l .done := by
  obtain ⟨t, rfl, h⟩ := h
  rcases h with ⟨s, rfl⟩ | ⟨s, rfl⟩ | ⟨v, s, rfl⟩ | ⟨v, s, rfl⟩ | ⟨v, s, rfl⟩ <;> rcases hs with rfl | rfl <;>
    simp [run, step, operand, within]

/-- What is claimed of the forms. -/
def Read : Cat → List TT → Prop
  | .expr, ts => ∀ l r st, (st = Seen.first ∨ st = .need) →
      ∃ st', (Complete st' ∨ st' = .low) ∧ run (ts ++ r) l st = run r l st'
  | .post, ts => ∀ l r st, (st = Seen.first ∨ st = .need) → ∃ st', Complete st' ∧ run (ts ++ r) l st = run r l st'
  | .trail, ts => ∀ l r st, Complete st → run (ts ++ r) l st = run r l .done
  | .args, ts => run ts .args .first = true
  | .stmts, ts => run ts .stmts .first = true

theorem Read.final {ts : List TT} (h : Read .expr ts) (l : Level) {st : Seen} (hs : st = .first ∨ st = .need) :
    run ts l st = true := by
  obtain ⟨st', h1, h2⟩ := h l [] st hs
  rw [List.append_nil] at h2
  rw [h2]
  rcases h1 with (rfl | rfl) | rfl <;> rfl

theorem Read.high {ts : List TT} (h : Read .post ts) : Read .expr ts := fun l r st hs => by
  obtain ⟨st', h1, h2⟩ := h l r st hs
  exact ⟨st', .inl h1, h2⟩

theorem read_form {c : Cat} {ts : List TT} (h : Form emitted c ts) : Read c ts := by
  induction h with
  | piece h => exact fun l r st hs => ⟨.done, .inl (.inr rfl), emitted_var h l r hs⟩
  | high _ ih => exact ih.high
  | closure0 s1 s2 _ ih =>
    intro l r st hs
    obtain ⟨st', h1, h2⟩ := ih l r .need (.inr rfl)
    refine ⟨st', h1, ?_⟩
    rcases hs with rfl | rfl <;> simp [run, step, operand, within, h2]
  | closure1 s1 s2 s3 _ _ ih =>
    intro l r st hs
    obtain ⟨st', h1, h2⟩ := ih l r .need (.inr rfl)
    refine ⟨st', h1, ?_⟩
    rcases hs with rfl | rfl <;> simp [run, step, operand, within, h2]
  | block s _ ih =>
    intro l r st hs
    refine ⟨.low, .inr rfl, ?_⟩
    have ih : run _ .stmts .first = true := ih
    rcases hs with rfl | rfl <;> simp [run, step, operand, within, start, ih]
  | lit s =>
    intro l r st hs
    refine ⟨.done, .inr rfl, ?_⟩
    rcases hs with rfl | rfl <;> simp [run, step, operand, within]
  | path h => exact fun l r st hs => ⟨.word, .inl rfl, run_path h l r hs⟩
  | mac s1 s2 hp hd _ =>
    intro l r st hs
    refine ⟨.done, .inr rfl, ?_⟩
    rw [List.append_assoc, run_path hp l _ hs]
    simp [run, step, within, hd]
  | paren s _ ih =>
    intro l r st hs
    refine ⟨.done, .inr rfl, ?_⟩
    have ih := ih.final .expr (.inr rfl)
    rcases hs with rfl | rfl <;> simp [run, step, operand, within, start, ih]
  | apply _ _ ih1 ih2 =>
    intro l r st hs
    obtain ⟨st', h1, h2⟩ := ih1 l (_ ++ r) st hs
    refine ⟨.done, .inr rfl, ?_⟩
    rw [List.append_assoc, h2, ih2 l r st' h1]
  | field s1 s2 _ => rintro l r st (rfl | rfl) <;> simp [run, step, after, within]
  | await s1 s2 => rintro l r st (rfl | rfl) <;> simp [run, step, after, within]
  | method s1 s2 s3 _ _ ih =>
    have ih : run _ .args .first = true := ih
    rintro l r st (rfl | rfl) <;> simp [run, step, after, within, start, ih]
  | call s _ ih =>
    have ih : run _ .args .first = true := ih
    rintro l r st (rfl | rfl) <;> simp [run, step, after, within, start, ih]
  | index s _ ih =>
    have ih := ih.final .expr (.inr rfl)
    rintro l r st (rfl | rfl) <;> simp [run, step, after, within, start, ih]
  | question s => rintro l r st (rfl | rfl) <;> simp [run, step, after, within]
  | more s h => exact h.elim
  | join _ _ ih1 ih2 =>
    intro l r st hs
    rw [List.append_assoc, ih1 l _ st hs, ih2 l r .done (.inr rfl)]
  | noArgs => rfl
  | oneArg _ ih => exact ih.final .args (.inl rfl)
  | manyArgs s _ _ ih1 ih2 =>
    obtain ⟨st', h1, h2⟩ := ih1 .args (.punct ',' s :: _) .first (.inl rfl)
    have ih2 : run _ .args .first = true := ih2
    show run _ _ _ = true
    rw [h2]
    rcases h1 with (rfl | rfl) | rfl <;> simp [run, step, after, behind, within, ih2]
  | noStmts => rfl
  | letStmt s1 s2 s3 s4 _ _ _ ih1 ih2 =>
    obtain ⟨st', h1, h2⟩ := ih1 .stmts (.punct ';' s4 :: _) .need (.inr rfl)
    have ih2 : run _ .stmts .first = true := ih2
    show run _ _ _ = true
    simp only [run, step, within, and_self, if_true, Bool.true_and]
    rw [h2]
    rcases h1 with (rfl | rfl) | rfl <;> simp [run, step, after, behind, within, ih2]
  | semi s _ _ ih1 ih2 =>
    obtain ⟨st', h1, h2⟩ := ih1 .stmts (.punct ';' s :: _) .first (.inl rfl)
    have ih2 : run _ .stmts .first = true := ih2
    show run _ _ _ = true
    rw [h2]
    rcases h1 with rfl | rfl <;> simp [run, step, after, behind, within, ih2]
  | last _ ih => exact ih.high.final .stmts (.inl rfl)
  | lastPiece h =>
    obtain ⟨t, rfl, h⟩ := h
    rcases h with ⟨v, s, rfl⟩ | ⟨v, s, rfl⟩ <;> simp [Read, run, step, operand, within, final]

/-! ## Nothing is read that ends with `!` -/

theorem run_bang (sp : Span) (l : Level) : ∀ (ts : List TT) (st : Seen), run (ts ++ [.punct '!' sp]) l st = false
  | [], st => by
    cases st <;> simp [run, step, operand, after, behind, within, final]
  | t :: ts, st => by
    simp only [List.cons_append, run]
    split
    · rfl
    · rw [run_bang sp l ts]; simp

/-! ## The contents of literals do not matter -/

theorem step_recount {x x' : String} {t t' : TT} (h : TT.Recount x x' t t') (l : Level) (st : Seen) :
    step l st t = step l st t' := by
  cases h <;> cases st <;> rfl

mutual
theorem within_recount {x x' : String} : ∀ (t t' : TT), TT.Recount x x' t t' → ∀ i, within t i = within t' i
  | .group d ts sp, t', h, i => by
    cases h with
    | same => rfl
    | group _ _ ts' _ h =>
      cases i with
      | none => rfl
      | some l => exact run_recount ts ts' h l _
  | .ident _ _, _, h, _ => by cases h; rfl
  | .punct _ _, _, h, _ => by cases h; rfl
  | .lit _ _, _, h, _ => by cases h <;> rfl
  | .exprHole _, _, h, _ => by cases h; rfl
  | .sourceHole _, _, h, _ => by cases h; rfl
  | .valueHole _ _, _, h, _ => by cases h; rfl
  | .bindingsHole _ _, _, h, _ => by cases h; rfl
  | .metaHole _ _, _, h, _ => by cases h <;> rfl
theorem run_recount {x x' : String} : ∀ (ts ts' : List TT), List.Forall₂ (TT.Recount x x') ts ts' →
    ∀ l st, run ts l st = run ts' l st
  | [], _, h, l, st => by cases h; rfl
  | t :: ts, _, h, l, st => by
    cases h with
    | cons h1 h2 =>
      simp only [run, step_recount h1]
      split
      · rfl
      · rw [within_recount t _ h1, run_recount ts _ h2]
end

end Reader

/-- What the emitted tokens are read as. -/
def Env.reading (env : Env) : Env :=
  { env with insertRear := Reader.rear, replaceShape := fun _ ts => Reader.shape ts }

/-- The assumptions of C68, C86 and C103 about the parser hold for one parser, for all texts. -/
theorem reading_meets (env : Env) : ReadsChains env.reading ∧ env.reading.CountBlind ∧ NoBangBehind env.reading := by
  refine ⟨fun dot ts h => ?_, ⟨fun x x' ts ts' h => ?_, fun r x x' ts ts' h => ?_⟩, ⟨fun ts sp => ?_, fun r ts sp => ?_⟩⟩
  · have := Reader.read_form h .expr [] .done (.inr rfl)
    rw [List.append_nil] at this
    simp only [Env.reading, Reader.rear, this]
    rfl
  · simp only [Env.reading, Reader.rear, Reader.run_recount ts ts' h]
  · simp only [Env.reading, Reader.shape]
    have hr := Reader.run_recount ts ts' h .expr .need
    cases h with
    | nil => rfl
    | cons h1 h2 =>
      cases h1 with
      | same t => cases h2 with
        | nil => rfl
        | cons h3 h4 => simp only [hr]
      | count | info | group => simp only [hr]
  · simp [Env.reading, Reader.rear, Reader.run_bang]
  · simp only [Env.reading, Reader.shape, Reader.run_bang]
    split
    · rename_i h
      cases ts with
      | nil => simp at h
      | cons _ l => cases l <;> simp at h
    · rfl

/-- The reader tells texts apart: `.f(|| {}, x::y![+]?)[0].await` is read behind an expression, but not `.`, `f`
or `.f(a b)`. -/
example :
    Reader.rear [.punct '.' .callSite, .ident "f" .callSite, .group .paren [.punct '|' .callSite, .punct '|' .callSite,
      .group .brace [] .callSite, .punct ',' .callSite, .ident "x" .callSite, .punct ':' .callSite,
      .punct ':' .callSite, .ident "y" .callSite, .punct '!' .callSite, .group .bracket [.punct '+' .callSite] .callSite,
      .punct '?' .callSite] .callSite, .group .bracket [.lit (.str "0") .callSite] .callSite, .punct '.' .callSite,
      .ident "await" .callSite] = some .whole ∧
    Reader.rear [.punct '.' .callSite] = none ∧ Reader.rear [.ident "f" .callSite] = none ∧
    Reader.rear [.punct '.' .callSite, .ident "f" .callSite, .group .paren [.ident "a" .callSite, .ident "b" .callSite]
      .callSite] = none := by decide

end Hooq
