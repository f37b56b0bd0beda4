import Verif.Spec.Chain
import Verif.Props.Hook

/-!
# Expanding chains of calls
-/

namespace Hooq

/-- The same token at another place. -/
def Moved (t u : TT) : Prop := ∃ sp, u = t.setSpan sp

theorem moved_append {a b c : List TT} (h : List.Forall₂ Moved (a ++ b) c) :
    ∃ c1 c2, c = c1 ++ c2 ∧ List.Forall₂ Moved a c1 ∧ List.Forall₂ Moved b c2 := by
  induction a generalizing c with
  | nil => exact ⟨[], c, rfl, .nil, h⟩
  | cons t a ih =>
    cases h with
    | cons h1 h2 =>
      obtain ⟨c1, c2, rfl, h3, h4⟩ := ih h2
      exact ⟨_ :: c1, c2, rfl, .cons h1 h3, h4⟩

theorem moved_nil {c : List TT} (h : List.Forall₂ Moved [] c) : c = [] := by cases h; rfl

theorem moved_cons {t : TT} {a c : List TT} (h : List.Forall₂ Moved (t :: a) c) :
    ∃ sp c', c = t.setSpan sp :: c' ∧ List.Forall₂ Moved a c' := by
  cases h with
  | cons h1 h2 =>
    obtain ⟨sp, rfl⟩ := h1
    exact ⟨sp, _, rfl, h2⟩

theorem moved_map (ts : List TT) (sp : Span) : List.Forall₂ Moved ts (ts.map (TT.setSpan sp)) := by
  induction ts with
  | nil => exact .nil
  | cons t ts ih => exact .cons ⟨sp, rfl⟩ ih

theorem PathForm.moved {p : List TT} (h : PathForm p) : ∀ {q : List TT}, List.Forall₂ Moved p q → PathForm q := by
  induction h with
  | name s hx =>
    intro q hm
    obtain ⟨s, _, rfl, g1⟩ := moved_cons hm
    obtain rfl := moved_nil g1
    exact .name s hx
  | absolute _ _ _ hx =>
    intro q hm
    obtain ⟨s1, _, rfl, g1⟩ := moved_cons hm
    obtain ⟨s2, _, rfl, g2⟩ := moved_cons g1
    obtain ⟨s3, _, rfl, g3⟩ := moved_cons g2
    obtain rfl := moved_nil g3
    exact .absolute s1 s2 s3 hx
  | more _ _ _ _ hx ih =>
    intro q hm
    obtain ⟨c1, c2, rfl, h1, g1⟩ := moved_append hm
    obtain ⟨s1, _, rfl, g2⟩ := moved_cons g1
    obtain ⟨s2, _, rfl, g3⟩ := moved_cons g2
    obtain ⟨s3, _, rfl, g4⟩ := moved_cons g3
    obtain rfl := moved_nil g4
    exact .more s1 s2 s3 (ih h1) hx

/-- The grammar of the output does not look at positions. -/
theorem Form.moved {c : Cat} {ts : List TT} (h : Form emitted c ts) :
    ∀ {us : List TT}, List.Forall₂ Moved ts us → Form emitted c us := by
  induction h with
  | piece h =>
    intro us hm
    obtain ⟨t, rfl, h⟩ := h
    obtain ⟨s, _, rfl, g1⟩ := moved_cons hm
    obtain rfl := moved_nil g1
    refine .piece ⟨_, rfl, ?_⟩
    rcases h with ⟨s, rfl⟩ | ⟨s, rfl⟩ | ⟨v, s, rfl⟩ | ⟨l, s, rfl⟩ | ⟨m, s, rfl⟩ <;> simp [TT.setSpan]
  | high _ ih => exact fun hm => .high (ih hm)
  | closure0 _ _ _ ih =>
    intro us hm
    obtain ⟨s1, _, rfl, g1⟩ := moved_cons hm
    obtain ⟨s2, _, rfl, g2⟩ := moved_cons g1
    exact .closure0 s1 s2 (ih g2)
  | closure1 _ _ _ hx _ ih =>
    intro us hm
    obtain ⟨s1, _, rfl, g1⟩ := moved_cons hm
    obtain ⟨s2, _, rfl, g2⟩ := moved_cons g1
    obtain ⟨s3, _, rfl, g3⟩ := moved_cons g2
    exact .closure1 s1 s2 s3 hx (ih g3)
  | block _ h _ =>
    intro us hm
    obtain ⟨s, _, rfl, g1⟩ := moved_cons hm
    obtain rfl := moved_nil g1
    exact .block s h
  | lit _ =>
    intro us hm
    obtain ⟨s, _, rfl, g1⟩ := moved_cons hm
    obtain rfl := moved_nil g1
    exact .lit s
  | path h => exact fun hm => .path (h.moved hm)
  | mac _ _ h hd hp =>
    intro us hm
    obtain ⟨c1, c2, rfl, h1, g1⟩ := moved_append hm
    obtain ⟨s1, _, rfl, g2⟩ := moved_cons g1
    obtain ⟨s2, _, rfl, g3⟩ := moved_cons g2
    obtain rfl := moved_nil g3
    exact .mac s1 s2 (h.moved h1) hd hp
  | paren _ h _ =>
    intro us hm
    obtain ⟨s, _, rfl, g1⟩ := moved_cons hm
    obtain rfl := moved_nil g1
    exact .paren s h
  | apply _ _ ih1 ih2 =>
    intro us hm
    obtain ⟨c1, c2, rfl, h1, g1⟩ := moved_append hm
    exact .apply (ih1 h1) (ih2 g1)
  | field _ _ hx =>
    intro us hm
    obtain ⟨s1, _, rfl, g1⟩ := moved_cons hm
    obtain ⟨s2, _, rfl, g2⟩ := moved_cons g1
    obtain rfl := moved_nil g2
    exact .field s1 s2 hx
  | await =>
    intro us hm
    obtain ⟨s1, _, rfl, g1⟩ := moved_cons hm
    obtain ⟨s2, _, rfl, g2⟩ := moved_cons g1
    obtain rfl := moved_nil g2
    exact .await s1 s2
  | method _ _ _ hx h _ =>
    intro us hm
    obtain ⟨s1, _, rfl, g1⟩ := moved_cons hm
    obtain ⟨s2, _, rfl, g2⟩ := moved_cons g1
    obtain ⟨s3, _, rfl, g3⟩ := moved_cons g2
    obtain rfl := moved_nil g3
    exact .method s1 s2 s3 hx h
  | call _ h _ =>
    intro us hm
    obtain ⟨s, _, rfl, g1⟩ := moved_cons hm
    obtain rfl := moved_nil g1
    exact .call s h
  | index _ h _ =>
    intro us hm
    obtain ⟨s, _, rfl, g1⟩ := moved_cons hm
    obtain rfl := moved_nil g1
    exact .index s h
  | question _ =>
    intro us hm
    obtain ⟨s, _, rfl, g1⟩ := moved_cons hm
    obtain rfl := moved_nil g1
    exact .question s
  | more _ h => exact h.elim
  | join _ _ ih1 ih2 =>
    intro us hm
    obtain ⟨c1, c2, rfl, h1, g1⟩ := moved_append hm
    exact .join (ih1 h1) (ih2 g1)
  | noArgs =>
    intro us hm
    obtain rfl := moved_nil hm
    exact .noArgs
  | oneArg _ ih => exact fun hm => .oneArg (ih hm)
  | manyArgs _ _ _ ih1 ih2 =>
    intro us hm
    obtain ⟨c1, c2, rfl, h1, g1⟩ := moved_append hm
    obtain ⟨s, _, rfl, g2⟩ := moved_cons g1
    exact .manyArgs s (ih1 h1) (ih2 g2)
  | noStmts =>
    intro us hm
    obtain rfl := moved_nil hm
    exact .noStmts
  | letStmt _ _ _ _ hx _ _ ih1 ih2 =>
    intro us hm
    obtain ⟨s1, _, rfl, g1⟩ := moved_cons hm
    obtain ⟨s2, _, rfl, g2⟩ := moved_cons g1
    obtain ⟨s3, _, rfl, g3⟩ := moved_cons g2
    obtain ⟨c1, c2, rfl, h1, g4⟩ := moved_append g3
    obtain ⟨s4, _, rfl, g5⟩ := moved_cons g4
    exact .letStmt s1 s2 s3 s4 hx (ih1 h1) (ih2 g5)
  | semi _ _ _ ih1 ih2 =>
    intro us hm
    obtain ⟨c1, c2, rfl, h1, g1⟩ := moved_append hm
    obtain ⟨s, _, rfl, g2⟩ := moved_cons g1
    exact .semi s (ih1 h1) (ih2 g2)
  | last _ ih => exact fun hm => .last (ih hm)
  | lastPiece h =>
    intro us hm
    obtain ⟨t, rfl, h⟩ := h
    obtain ⟨s, _, rfl, g1⟩ := moved_cons hm
    obtain rfl := moved_nil g1
    refine .lastPiece ⟨_, rfl, ?_⟩
    rcases h with ⟨l, s, rfl⟩ | ⟨m, s, rfl⟩ <;> simp [TT.setSpan]

theorem Form.dot {c : Cat} {s : Span} {ts : List TT} (h : Form emitted c (.punct '.' s :: ts)) (s' sp : Span) :
    Form emitted c (.punct '.' s' :: ts.map (TT.setSpan sp)) :=
  h.moved (.cons ⟨s', rfl⟩ (moved_map ts sp))

theorem Form.dot' {c : Cat} {s : Span} {ts : List TT} (h : Form emitted c (.punct '.' s :: ts)) (s' : Span) :
    Form emitted c (.punct '.' s' :: ts) := by
  have same : ∀ l : List TT, List.Forall₂ Moved l l := by
    intro l
    induction l with
    | nil => exact .nil
    | cons t l ih => exact .cons ⟨t.span, by cases t <;> rfl⟩ ih
  exact h.moved (.cons ⟨s', rfl⟩ (same ts))

/-- The text of a path is kept. -/
theorem PathForm.kept {σ : String → List TT → Prop} {p : List TT} (h : PathForm p) :
    ∀ {rest out : List TT}, Subst σ rest out → Subst σ (p ++ rest) (p ++ out) := by
  have id : ∀ {x : String} {s : Span} {rest out : List TT}, Subst σ rest out →
      Subst σ (.ident x s :: rest) (.ident x s :: out) := .tok (by simp) (by simp)
  have colon : ∀ {s : Span} {rest out : List TT}, Subst σ rest out →
      Subst σ (.punct ':' s :: rest) (.punct ':' s :: out) := .tok (by simp) (by simp)
  induction h with
  | name s hx => exact fun h => id h
  | absolute _ _ _ hx => exact fun h => colon (colon (id h))
  | more _ _ _ _ hx ih =>
    intro rest out h
    rw [List.append_assoc, List.append_assoc]
    exact ih (colon (colon (id h)))

/-- Macro bodies expand if the names in them are known. -/
theorem closed_subst {σ : String → List TT → Prop} {Q : String → Prop} (hσ : ∀ x, Q x → ∃ o, σ x o) :
    ∀ ts : List TT, (ClosedAll Q false ts → ∃ out, Subst σ ts out) := by
  suffices h : ∀ n ts, sizeOf ts ≤ n → ClosedAll Q false ts → ∃ out, Subst σ ts out from
    fun ts => h _ ts (Nat.le_refl _)
  intro n
  induction n with
  | zero =>
    intro ts hn
    cases ts <;> simp at hn
  | succ n ih =>
    intro ts hn h
    cases ts with
    | nil => exact ⟨_, .nil⟩
    | cons t rest =>
      simp only [List.cons.sizeOf_spec] at hn
      by_cases hd : ∃ sp, t = .punct '$' sp
      · obtain ⟨sp, rfl⟩ := hd
        cases rest with
        | nil => exact ⟨_, .lastDollar⟩
        | cons u rest =>
          obtain ⟨⟨x, ⟨sp', rfl⟩, hx⟩, h2⟩ := h.1 sp rfl
          simp only [List.cons.sizeOf_spec] at hn
          obtain ⟨o, ho⟩ := hσ x hx
          obtain ⟨out, hout⟩ := ih rest (by omega) h2
          exact ⟨_, .var ho hout⟩
      · have hd' : ∀ sp, t ≠ .punct '$' sp := fun sp e => hd ⟨sp, e⟩
        obtain ⟨h1, h2⟩ := h.2 hd'
        obtain ⟨out, hout⟩ := ih rest (by omega) h2
        by_cases hg : ∃ d ts sp, t = .group d ts sp
        · obtain ⟨d, us, sp, rfl⟩ := hg
          simp only [TT.group.sizeOf_spec] at hn
          obtain ⟨o, ho⟩ := ih us (by omega) h1
          exact ⟨_, .group ho hout⟩
        · exact ⟨_, .tok hd' (fun d us sp e => hg ⟨d, us, sp, e⟩) hout⟩

/-- Expanding a text of the grammar gives a text of the grammar. -/
theorem Form.expand {σ : String → List TT → Prop} {P : Pieces}
    (hvar : ∀ ts, P.var ts → ∃ x s1 s2 o, ts = [.punct '$' s1, .ident x s2] ∧ σ x o ∧ Form emitted .expr o)
    (hstmt : ∀ ts, P.stmt ts → ∃ x s1 s2 o, ts = [.punct '$' s1, .ident x s2] ∧ σ x o ∧ Form emitted .stmts o)
    (hmore : ∀ ts, P.more ts → ∃ x s1 s2 o, ts = [.punct '$' s1, .ident x s2] ∧ σ x o ∧
      ∀ s, Form emitted .trail (.punct '.' s :: o))
    (hmac : ∀ ts, P.mac ts → ∃ o, Subst σ ts o)
    {c : Cat} {ts : List TT} (h : Form P c ts) : ∀ {rest out : List TT}, Subst σ rest out →
      ∃ o, Subst σ (ts ++ rest) (o ++ out) ∧ Form emitted c o := by
  have id : ∀ {x : String} {s : Span} {rest out : List TT}, Subst σ rest out →
      Subst σ (.ident x s :: rest) (.ident x s :: out) := .tok (by simp) (by simp)
  have pu : ∀ {c : Char} {s : Span} {rest out : List TT}, c ≠ '$' → Subst σ rest out →
      Subst σ (.punct c s :: rest) (.punct c s :: out) := fun hc => .tok (by simpa using hc) (by simp)
  have inner : ∀ {c : Cat} {e : List TT}, (∀ {rest out : List TT}, Subst σ rest out →
      ∃ o, Subst σ (e ++ rest) (o ++ out) ∧ Form emitted c o) → ∃ o, Subst σ e o ∧ Form emitted c o := by
    intro c e ih
    obtain ⟨o, h1, h2⟩ := ih .nil
    exact ⟨o, by simpa using h1, h2⟩
  induction h with
  | piece hp =>
    intro rest out hr
    obtain ⟨x, s1, s2, o, rfl, ho, hf⟩ := hvar _ hp
    exact ⟨o, .var ho hr, hf⟩
  | high _ ih =>
    intro rest out hr
    obtain ⟨o, h1, h2⟩ := ih hr
    exact ⟨o, h1, .high h2⟩
  | closure0 s1 s2 _ ih =>
    intro rest out hr
    obtain ⟨o, h1, h2⟩ := ih hr
    exact ⟨_ :: _ :: o, pu (by decide) (pu (by decide) h1), .closure0 s1 s2 h2⟩
  | closure1 s1 s2 s3 hx _ ih =>
    intro rest out hr
    obtain ⟨o, h1, h2⟩ := ih hr
    exact ⟨_ :: _ :: _ :: o, pu (by decide) (id (pu (by decide) h1)), .closure1 s1 s2 s3 hx h2⟩
  | block s _ ih =>
    intro rest out hr
    obtain ⟨o, h1, h2⟩ := inner ih
    exact ⟨[_], .group h1 hr, .block _ h2⟩
  | lit s => exact fun hr => ⟨[_], .tok (by simp) (by simp) hr, .lit s⟩
  | path hp => exact fun hr => ⟨_, hp.kept hr, .path hp⟩
  | mac s1 s2 hp hd hm =>
    intro rest out hr
    obtain ⟨o, h1⟩ := hmac _ hm
    refine ⟨_ ++ [.punct '!' s1, .group _ o .callSite], ?_, .mac s1 .callSite hp hd trivial⟩
    rw [List.append_assoc, List.append_assoc]
    exact hp.kept (pu (by decide) (.group h1 hr))
  | paren s _ ih =>
    intro rest out hr
    obtain ⟨o, h1, h2⟩ := inner ih
    exact ⟨[_], .group h1 hr, .paren _ h2⟩
  | apply _ _ ih1 ih2 =>
    intro rest out hr
    obtain ⟨o2, h3, h4⟩ := ih2 hr
    obtain ⟨o1, h1, h2⟩ := ih1 h3
    exact ⟨o1 ++ o2, by simpa using h1, .apply h2 h4⟩
  | field s1 s2 hx => exact fun hr => ⟨[_, _], pu (by decide) (id hr), .field s1 s2 hx⟩
  | await s1 s2 => exact fun hr => ⟨[_, _], pu (by decide) (id hr), .await s1 s2⟩
  | method s1 s2 s3 hx _ ih =>
    intro rest out hr
    obtain ⟨o, h1, h2⟩ := inner ih
    exact ⟨[_, _, _], pu (by decide) (id (.group h1 hr)), .method s1 s2 _ hx h2⟩
  | call s _ ih =>
    intro rest out hr
    obtain ⟨o, h1, h2⟩ := inner ih
    exact ⟨[_], .group h1 hr, .call _ h2⟩
  | index s _ ih =>
    intro rest out hr
    obtain ⟨o, h1, h2⟩ := inner ih
    exact ⟨[_], .group h1 hr, .index _ h2⟩
  | question s => exact fun hr => ⟨[_], pu (by decide) hr, .question s⟩
  | more s hp =>
    intro rest out hr
    obtain ⟨x, s1, s2, o, rfl, ho, hf⟩ := hmore _ hp
    exact ⟨_ :: o, pu (by decide) (.var ho hr), hf s⟩
  | join _ _ ih1 ih2 =>
    intro rest out hr
    obtain ⟨o2, h3, h4⟩ := ih2 hr
    obtain ⟨o1, h1, h2⟩ := ih1 h3
    exact ⟨o1 ++ o2, by simpa using h1, .join h2 h4⟩
  | noArgs => exact fun hr => ⟨[], hr, .noArgs⟩
  | oneArg _ ih =>
    intro rest out hr
    obtain ⟨o, h1, h2⟩ := ih hr
    exact ⟨o, h1, .oneArg h2⟩
  | manyArgs s _ _ ih1 ih2 =>
    intro rest out hr
    obtain ⟨o2, h3, h4⟩ := ih2 hr
    obtain ⟨o1, h1, h2⟩ := ih1 (pu (c := ',') (s := s) (by decide) h3)
    exact ⟨_, by simpa using h1, .manyArgs s h2 h4⟩
  | noStmts => exact fun hr => ⟨[], hr, .noStmts⟩
  | letStmt s1 s2 s3 s4 hx _ _ ih1 ih2 =>
    intro rest out hr
    obtain ⟨o2, h3, h4⟩ := ih2 hr
    obtain ⟨o1, h1, h2⟩ := ih1 (pu (c := ';') (s := s4) (by decide) h3)
    refine ⟨_, ?_, .letStmt s1 s2 s3 s4 hx h2 h4⟩
    simpa using id (id (pu (by decide) h1))
  | semi s _ _ ih1 ih2 =>
    intro rest out hr
    obtain ⟨o2, h3, h4⟩ := ih2 hr
    obtain ⟨o1, h1, h2⟩ := ih1 (pu (c := ';') (s := s) (by decide) h3)
    exact ⟨_, by simpa using h1, .semi s h2 h4⟩
  | last _ ih =>
    intro rest out hr
    obtain ⟨o, h1, h2⟩ := ih hr
    exact ⟨o, h1, .last h2⟩
  | lastPiece hp =>
    intro rest out hr
    obtain ⟨x, s1, s2, o, rfl, ho, hf⟩ := hstmt _ hp
    exact ⟨o, .var ho hr, hf⟩

/-- What a known name stands for. -/
theorem known_text {v : Site} (hl : ∃ l, Listing v.binding l) {P : List TT → Prop} {x : String}
    (h : Known v.binding x) : ∃ o, VarText v P x o ∧ Form emitted .expr o ∧
      ((∃ m : MetaVar, m ≠ .expr ∧ m ≠ .source ∧ m.Named x) → Form emitted .stmts o) := by
  obtain ⟨l, hl⟩ := hl
  have lit : ∀ {o : Lit}, Form emitted .expr [.lit o .callSite] ∧ Form emitted .stmts [.lit o .callSite] :=
    ⟨.high (.lit _), .last (.lit _)⟩
  rcases h with ⟨m, hm, hx⟩ | ⟨hx, hb⟩
  · cases m with
    | line => exact ⟨_, .line hx, lit.1, fun _ => lit.2⟩
    | column => exact ⟨_, .column hx, lit.1, fun _ => lit.2⟩
    | path => exact ⟨_, .path hx, lit.1, fun _ => lit.2⟩
    | file => exact ⟨_, .file hx (fileName_spec _), lit.1, fun _ => lit.2⟩
    | count => exact ⟨_, .count hx, lit.1, fun _ => lit.2⟩
    | fnName => exact ⟨_, .fnName hx, lit.1, fun _ => lit.2⟩
    | fnSig => exact ⟨_, .fnSig hx, lit.1, fun _ => lit.2⟩
    | soFar => exact absurd rfl hm
    | expr =>
      exact ⟨_, .expr hx, .piece ⟨_, rfl, .inl ⟨_, rfl⟩⟩, fun ⟨m, h1, _, h2⟩ => absurd (named_unique h2 hx) h1⟩
    | source =>
      exact ⟨_, .source hx, .piece ⟨_, rfl, .inr (.inl ⟨_, rfl⟩)⟩,
        fun ⟨m, _, h1, h2⟩ => absurd (named_unique h2 hx) h1⟩
    | bindings =>
      exact ⟨_, .bindings hx hl, .piece ⟨_, rfl, .inr (.inr (.inr (.inl ⟨_, _, rfl⟩)))⟩,
        fun _ => .lastPiece ⟨_, rfl, .inl ⟨_, _, rfl⟩⟩⟩
    | hooqMeta =>
      exact ⟨_, .hooqMeta hx hl (fileName_spec _), .piece ⟨_, rfl, .inr (.inr (.inr (.inr ⟨_, _, rfl⟩)))⟩,
        fun _ => .lastPiece ⟨_, rfl, .inr ⟨_, _, rfl⟩⟩⟩
  · obtain ⟨b, hb⟩ := Option.ne_none_iff_exists'.1 hb
    exact ⟨_, .binding hx hb, .piece ⟨_, rfl, .inr (.inr (.inl ⟨_, _, rfl⟩))⟩, fun ⟨m, _, _, h2⟩ => absurd h2 (hx m)⟩

theorem chain_expand {v : Site} (hl : ∃ l, Listing v.binding l) {more : Prop} {so : List TT → Prop}
    (hso : more → ∃ o, so o ∧ ∀ s, Form emitted .trail (.punct '.' s :: o)) {dot : Span} {ts : List TT}
    (h : Form (template v.binding more) .trail (.punct '.' dot :: ts)) :
    ∃ out, Subst (VarText v so) ts out ∧ Form emitted .trail (.punct '.' dot :: out) := by
  obtain ⟨o, h1, h2⟩ := h.expand (σ := VarText v so)
    (by
      rintro ts ⟨x, s1, s2, rfl, hx⟩
      obtain ⟨o, h1, h2, -⟩ := known_text hl (P := so) hx
      exact ⟨x, s1, s2, o, rfl, h1, h2⟩)
    (by
      rintro ts ⟨x, s1, s2, rfl, m, h1, h2, h3, hx⟩
      obtain ⟨o, k1, -, k3⟩ := known_text hl (P := so) (.inl ⟨m, h1, hx⟩)
      exact ⟨x, s1, s2, o, rfl, k1, k3 ⟨m, h2, h3, hx⟩⟩)
    (by
      rintro ts ⟨hm, x, s1, s2, rfl, hx⟩
      obtain ⟨o, h1, h2⟩ := hso hm
      exact ⟨x, s1, s2, o, rfl, .soFar hx h1, h2⟩)
    (fun ts hc => closed_subst (fun x hx => by
      obtain ⟨o, h1, -⟩ := known_text hl (P := so) hx
      exact ⟨o, h1⟩) ts hc) .nil
  simp only [List.append_nil] at h1
  generalize hw : TT.punct '.' dot :: ts = ws at h1
  cases h1 with
  | tok _ _ h3 =>
    simp only [List.cons.injEq] at hw
    obtain ⟨rfl, rfl⟩ := hw
    exact ⟨_, h3, h2⟩
  | _ => simp at hw

theorem stack_expand {v : Site} (hl : ∃ l, Listing v.binding l) : ∀ {ms : List Method}, ChainStack v.binding ms →
    ∃ out, StackText v ms out ∧ ∀ s, Form emitted .trail (.punct '.' s :: out) := by
  have one : ∀ {more : Prop} {m : Method} {rest : List Method}, ChainMethod v.binding more m →
      (more → ∃ o, StackText v rest o ∧ ∀ s, Form emitted .trail (.punct '.' s :: o)) →
      ∃ out, StackText v (m :: rest) out ∧ ∀ s, Form emitted .trail (.punct '.' s :: out) := by
    rintro more m rest ⟨dot, ts, exc, rfl, hf⟩ hso
    obtain ⟨out, h1, h2⟩ := chain_expand hl hso hf
    exact ⟨out, h1, fun s => h2.dot' s⟩
  intro ms
  induction ms with
  | nil => exact fun h => h.elim
  | cons m rest ih =>
    intro h
    cases rest with
    | nil => exact one (rest := []) h (fun f => f.elim)
    | cons m' rest => exact one h.1 fun _ => ih h.2

end Hooq
