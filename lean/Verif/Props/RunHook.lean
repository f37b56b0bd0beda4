import Verif.Spec.RunHook
import Verif.Props.RunCode
import Verif.Props.Capture

/-!
# C94: what the hooks of the built-in flavors do when they run
-/

namespace Hooq

variable {Ty : Nat → Type} {W : World Ty} {hp : List TT} {L : Locals Ty}

/-! ## Running is unambiguous -/

/-- An expression contains no `!` at its top. -/
theorem Computes.no_bang {M : Machine Ty} {ts : List TT} {v : RVal Ty} (h : Computes M L ts v) (s : Span) :
    TT.punct '!' s ∉ ts := by
  have path : ∀ {p : List TT} {f : List String} {g : TT}, AbsPath p f → g ≠ .punct '!' s →
      TT.punct '!' s ∉ p ++ [g] := by
    intro p f g hp hg ht
    simp only [List.mem_append, List.mem_singleton] at ht
    rcases ht with ht | ht
    · rcases hp.inner _ ht with ⟨_, e⟩ | ⟨_, _, e⟩ <;> simp at e
    · exact hg ht.symm
  cases h with
  | call hp _ _ => exact path hp (by simp)
  | make hp _ _ => exact path hp (by simp)
  | _ => simp

theorem Code.inv {ts : List TT} {v : RVal Ty} (h : Code W hp L ts v) :
    Computes W.toMachine L ts v ∨
      (∃ m sp, ts = [.metaHole m sp] ∧ Computes W.toMachine L (metaTokens W.source m) v) ∨
      (∃ mac s s1 s2 s3 s4 s5 s6, ts = hp ++ [.punct ':' s1, .punct ':' s2, .ident mac s3, .punct '!' s4,
        .group .paren [.sourceHole s5] s6] ∧ W.excerpt mac = some s ∧ v = .slice s) ∨
      (∃ f s s1 s2 s3 s4, ts = [.ident "format" s1, .punct '!' s2, .group .paren [.lit (.str f) s3] s4] ∧
        W.format L f = some s ∧ v = .owned s) := by
  cases h with
  | pure h => exact .inl h
  | record h => exact .inr (.inl ⟨_, _, rfl, h⟩)
  | excerpt h => exact .inr (.inr (.inl ⟨_, _, _, _, _, _, _, _, rfl, h, rfl⟩))
  | format h => exact .inr (.inr (.inr ⟨_, _, _, _, _, _, rfl, h, rfl⟩))

theorem Code.unique {ts : List TT} {v w : RVal Ty} (h : Code W hp L ts v) (h' : Code W hp L ts w) : v = w := by
  have hole : ∀ {m : MetaRec} {sp : Span} {v : RVal Ty}, ¬ Computes W.toMachine L [.metaHole m sp] v := by
    intro m sp v h
    have := h.single
    simp at this
  cases h with
  | pure h =>
    rcases h'.inv with g | ⟨_, _, rfl, g⟩ | ⟨_, _, _, _, _, _, _, _, rfl, _⟩ | ⟨_, _, _, _, _, _, rfl, _⟩
    · exact h.unique g
    · exact absurd h hole
    · rename_i s4 _ _ _
      exact absurd (by simp) (h.no_bang s4)
    · rename_i s2 _ _ _
      exact absurd (by simp) (h.no_bang s2)
  | record h =>
    rcases h'.inv with g | ⟨_, _, e, g⟩ | ⟨_, _, _, _, _, _, _, _, e, _⟩ | ⟨_, _, _, _, _, _, e, _⟩
    · exact absurd g hole
    · simp only [List.cons.injEq, TT.metaHole.injEq, and_true] at e
      rw [← e.1] at g
      exact h.unique g
    · have := congrArg List.length e
      simp at this
    · simp at e
  | excerpt h =>
    rcases h'.inv with g | ⟨_, _, e, g⟩ | ⟨_, _, _, _, _, _, _, _, e, g, rfl⟩ | ⟨_, _, _, _, _, _, e, _⟩
    · rename_i s4 _ _
      exact absurd (by simp) (g.no_bang s4)
    · have := congrArg List.length e
      simp at this
    · simp only [List.append_cancel_left_eq, List.cons.injEq, TT.ident.injEq] at e
      rw [e.2.2.1.1, g] at h
      rw [Option.some.inj h]
    · have := congrArg List.length e
      simp at this
  | format h =>
    rcases h'.inv with g | ⟨_, _, e, g⟩ | ⟨_, _, _, _, _, _, _, _, e, g, rfl⟩ | ⟨_, _, _, _, _, _, e, g, rfl⟩
    · rename_i s2 _ _
      exact absurd (by simp) (g.no_bang s2)
    · simp at e
    · have := congrArg List.length e
      simp at this
    · simp only [List.cons.injEq, TT.group.injEq, TT.lit.injEq, Lit.str.injEq, true_and, and_true] at e
      rw [e.2.2.1.1, g] at h
      rw [Option.some.inj h]

/-- No separator stands at the top of an expression. -/
theorem Code.inner {ts : List TT} {v : RVal Ty} (hh : ∀ t ∈ hp, t.InPath) (h : Code W hp L ts v) :
    ∀ t ∈ ts, t.Inner := by
  have hin : ∀ t ∈ hp, t.Inner := by
    intro t ht
    have := hh t ht
    cases t <;> simp_all [TT.InPath, TT.Inner]
  cases h with
  | pure h => exact h.inner
  | excerpt _ =>
    intro t ht
    simp only [List.mem_append, List.mem_cons, List.not_mem_nil, or_false] at ht
    rcases ht with ht | rfl | rfl | rfl | rfl | rfl
    · exact hin t ht
    all_goals simp [TT.Inner]
  | _ => simp [TT.Inner]

/-- An expression does not begin with `let`. -/
theorem Code.no_let {x : String} {t : TT} {us : List TT} {v : RVal Ty} {s1 s2 : Span}
    (hh : ∀ t ∈ hp, t.InPath) : ¬ Code W hp L (.ident "let" s1 :: .ident x s2 :: t :: us) v := by
  intro h
  rcases h.inv with g | ⟨_, _, e, g⟩ | ⟨_, _, _, _, _, _, _, _, e, _⟩ | ⟨_, _, _, _, _, _, e, _⟩
  · exact Computes.no_let g
  · simp at e
  · cases hp with
    | nil => simp at e
    | cons a hp =>
      simp only [List.cons_append, List.cons.injEq] at e
      have := hh a (by simp)
      rw [← e.1] at this
      simp [TT.InPath] at this
  · simp at e

theorem Recorded.unique {us : List TT} {fs gs : List (String × FieldText Ty)} (h : Recorded W L us fs)
    (h' : Recorded W L us gs) : fs = gs := by
  induction h generalizing gs with
  | nil => cases h'; rfl
  | value h1 _ ih =>
    cases h' with
    | value g1 g2 =>
      rw [h1] at g1
      rw [Option.some.inj g1, ih g2]
  | shown h1 h2 _ ih =>
    cases h' with
    | shown g1 g2 g3 =>
      rw [h1] at g1
      obtain rfl := Option.some.inj g1
      rw [h2] at g2
      rw [Option.some.inj g2, ih g3]

theorem Runs.inv {ts : List TT} {eff : Effect Ty} (h : Runs W hp L ts eff) :
    (∃ v, Code W hp L ts v ∧ eff = .value v) ∨
      (∃ x us ws w s1 s2 s3 s4, ts = .ident "let" s1 :: .ident x s2 :: .punct '=' s3 :: (us ++ .punct ';' s4 :: ws) ∧
        Code W hp L us w ∧ Runs W hp (L.set x w) ws eff) ∨
      ∃ p n us s1 s2 s3, AbsPath p n ∧ ts = p ++ [.punct '!' s1, .group .paren us s2, .punct ';' s3] ∧
        ((∃ f s sp, n = ["std", "eprintln"] ∧ us = [.lit (.str f) sp] ∧ W.format L f = some s ∧
            eff = .event (.printed (s ++ "\n"))) ∨
          (∃ lv v f s t1 t2, n = ["log", "log"] ∧ us = lv ++ [.punct ',' t1, .lit (.str f) t2] ∧ Code W hp L lv v ∧
            W.format L f = some s ∧ eff = .event (.logged (W.asAny v) s)) ∨
          (∃ lv v ws fs t1, n = ["tracing", "event"] ∧ us = lv ++ .punct ',' t1 :: ws ∧ Code W hp L lv v ∧
            Recorded W L ws fs ∧ eff = .event (.traced (W.asAny v) fs))) := by
  cases h with
  | value h => exact .inl ⟨_, h, rfl⟩
  | bind h1 h2 => exact .inr (.inl ⟨_, _, _, _, _, _, _, _, rfl, h1, h2⟩)
  | print h1 h2 => exact .inr (.inr ⟨_, _, _, _, _, _, h1, rfl, .inl ⟨_, _, _, rfl, rfl, h2, rfl⟩⟩)
  | log h1 h2 h3 =>
    exact .inr (.inr ⟨_, _, _, _, _, _, h1, rfl, .inr (.inl ⟨_, _, _, _, _, _, rfl, rfl, h2, h3, rfl⟩)⟩)
  | trace h1 h2 h3 =>
    exact .inr (.inr ⟨_, _, _, _, _, _, h1, rfl, .inr (.inr ⟨_, _, _, _, _, rfl, rfl, h2, h3, rfl⟩)⟩)

/-- A macro call as a statement: neither an expression nor a `let`. -/
theorem Runs.macro {p us : List TT} {n : List String} {s1 s2 s3 : Span} {eff : Effect Ty} (hh : ∀ t ∈ hp, t.InPath)
    (hp' : AbsPath p n) (h : Runs W hp L (p ++ [.punct '!' s1, .group .paren us s2, .punct ';' s3]) eff) :
    (∃ f s sp, n = ["std", "eprintln"] ∧ us = [.lit (.str f) sp] ∧ W.format L f = some s ∧
        eff = .event (.printed (s ++ "\n"))) ∨
      (∃ lv v f s t1 t2, n = ["log", "log"] ∧ us = lv ++ [.punct ',' t1, .lit (.str f) t2] ∧ Code W hp L lv v ∧
        W.format L f = some s ∧ eff = .event (.logged (W.asAny v) s)) ∨
      (∃ lv v ws fs t1, n = ["tracing", "event"] ∧ us = lv ++ .punct ',' t1 :: ws ∧ Code W hp L lv v ∧
        Recorded W L ws fs ∧ eff = .event (.traced (W.asAny v) fs)) := by
  rcases h.inv with ⟨_, g, _⟩ | ⟨_, _, _, _, _, _, _, _, e, _⟩ | ⟨_, _, _, _, _, _, g1, e, g2⟩
  · exact absurd (g.inner hh (.punct ';' s3) (by simp)) (notInner_semi _)
  · obtain ⟨_, _, _, _, _, rfl⟩ := hp'.colon
    simp at e
  · have ⟨e1, e2⟩ := List.append_inj' e rfl
    simp only [List.cons.injEq, TT.group.injEq, true_and, and_true] at e2
    obtain ⟨_, ⟨rfl, _⟩, _⟩ := e2
    subst e1
    obtain rfl := hp'.unique g1
    exact g2

theorem Runs.unique {ts : List TT} {a b : Effect Ty} (hh : ∀ t ∈ hp, t.InPath) (h : Runs W hp L ts a) :
    Runs W hp L ts b → a = b := by
  induction h generalizing b with
  | value h =>
    intro h'
    rcases h'.inv with ⟨_, g, rfl⟩ | ⟨_, _, _, _, _, _, _, _, rfl, _⟩ | ⟨_, _, _, _, _, s3, g1, rfl, _⟩
    · rw [h.unique g]
    · exact absurd h (Code.no_let hh)
    · exact absurd (h.inner hh (.punct ';' s3) (by simp)) (notInner_semi _)
  | bind h1 h2 ih =>
    intro h'
    rcases h'.inv with ⟨_, g, rfl⟩ | ⟨_, _, _, _, _, _, _, _, e, g1, g2⟩ | ⟨_, _, _, _, _, _, g1, e, _⟩
    · exact absurd g (Code.no_let hh)
    · simp only [List.cons.injEq, TT.ident.injEq, TT.punct.injEq, true_and] at e
      obtain ⟨_, ⟨rfl, _⟩, _, e⟩ := e
      obtain ⟨rfl, _, rfl⟩ := cut_inner (h1.inner hh) (g1.inner hh) (notInner_semi _) (notInner_semi _) e
      obtain rfl := h1.unique g1
      exact ih g2
    · obtain ⟨_, _, _, _, _, rfl⟩ := g1.colon
      simp at e
  | print h1 h2 =>
    intro h'
    rcases h'.macro hh h1 with ⟨_, _, _, _, e, g, rfl⟩ | ⟨_, _, _, _, _, _, e, _⟩ | ⟨_, _, _, _, _, e, _⟩
    · simp only [List.cons.injEq, TT.lit.injEq, Lit.str.injEq, and_true] at e
      rw [← e.1, h2] at g
      rw [Option.some.inj g]
    · simp at e
    · simp at e
  | log h1 h2 h3 =>
    intro h'
    rcases h'.macro hh h1 with ⟨_, _, _, e, _⟩ | ⟨_, _, _, _, _, _, _, e, g2, g3, rfl⟩ | ⟨_, _, _, _, _, e, _⟩
    · simp at e
    · obtain ⟨rfl, _, e⟩ := cut_inner (h2.inner hh) (g2.inner hh) (notInner_comma _) (notInner_comma _) e
      simp only [List.cons.injEq, TT.lit.injEq, Lit.str.injEq, and_true] at e
      rw [← e.1, h3] at g3
      rw [Option.some.inj g3, h2.unique g2]
    · simp at e
  | trace h1 h2 h3 =>
    intro h'
    rcases h'.macro hh h1 with ⟨_, _, _, e, _⟩ | ⟨_, _, _, _, _, _, e, _⟩ | ⟨_, _, _, _, _, _, e, g2, g3, rfl⟩
    · simp at e
    · simp at e
    · obtain ⟨rfl, _, rfl⟩ := cut_inner (h2.inner hh) (g2.inner hh) (notInner_comma _) (notInner_comma _) e
      rw [h2.unique g2, h3.unique g3]

/-- A method call does one thing. -/
theorem Does.unique {ts : List TT} {r a b : Res Ty} {es fs : List (Report Ty)} (hh : ∀ t ∈ hp, t.InPath)
    (h : Does W hp L ts r a es) (h' : Does W hp L ts r b fs) : a = b ∧ es = fs := by
  cases h with
  | expr => cases h'; exact ⟨rfl, rfl⟩
  | lookOk _ => cases h'; exact ⟨rfl, rfl⟩
  | lookErr _ h1 =>
    cases h' with
    | lookErr _ g1 =>
      have := h1.unique hh g1
      simp only [Effect.event.injEq] at this
      exact ⟨rfl, by rw [this]⟩
  | wrapOk h0 =>
    cases h' with
    | wrapOk _ => exact ⟨rfl, rfl⟩
    | hook g0 _ => rw [g0] at h0; simp at h0
  | wrapErr h0 h1 =>
    cases h' with
    | wrapErr _ g1 =>
      have := h1.unique hh g1
      simp only [Effect.value.injEq, RVal.owned.injEq] at this
      exact ⟨by rw [this], rfl⟩
    | hook g0 _ => rw [g0] at h0; simp at h0
  | hook h0 h1 =>
    cases h' with
    | wrapOk g0 => rw [h0] at g0; simp at g0
    | wrapErr g0 _ => rw [h0] at g0; simp at g0
    | hook _ g1 =>
      have := h1.unique hh g1
      simp only [Effect.value.injEq, RVal.record.injEq] at this
      rw [this.1, this.2]
      exact ⟨rfl, rfl⟩

/-! ## The tokens of a hook -/

mutual
/-- A token with `g x` for every `$x`. -/
def TT.fillToks (g : String → List TT) : TT → TT
  | .group d ts _ => .group d (fillToks g false ts) .callSite
  | t => t
/-- A template with `g x` for every `$x`; the flag says that the token before was a `$`. -/
def fillToks (g : String → List TT) : Bool → List TT → List TT
  | _, [] => []
  | true, .ident x _ :: ts => g x ++ fillToks g false ts
  | true, _ :: _ => []
  | false, t :: ts => if t.isPunct '$' then fillToks g true ts else t.fillToks g :: fillToks g false ts
end

theorem Subst.fillToks {σ : String → List TT → Prop} {P : String → Prop} {g : String → List TT}
    (hσ : ∀ x o, P x → σ x o → o = g x) {ts out : List TT} (h : Subst σ ts out)
    (hc : ClosedAll P false ts) : out = fillToks g false ts := by
  induction h with
  | nil => simp [Hooq.fillToks]
  | @var sp sp' x o rest out h1 h2 ih =>
    obtain ⟨⟨y, ⟨_, e⟩, hy⟩, h4⟩ := hc.1 sp rfl
    simp only [TT.ident.injEq] at e
    obtain ⟨rfl, -⟩ := e
    rw [hσ _ _ hy h1, ih h4]
    simp [Hooq.fillToks, TT.isPunct]
  | @group d ts ts' rest out sp h1 h2 ih1 ih2 =>
    obtain ⟨h3, h4⟩ := hc.2 (by simp)
    simp [Hooq.fillToks, TT.isPunct, TT.fillToks, ih1 h3, ih2 h4]
  | @tok t rest out h1 h2 h3 ih =>
    obtain ⟨_, h4⟩ := hc.2 h1
    have ht : t.isPunct '$' = false := by
      cases t <;> simp_all [TT.isPunct]
    have e : t.fillToks g = t := by
      cases t <;> simp_all [TT.fillToks]
    rw [Hooq.fillToks, ht, e, ← ih h4]
    rfl
  | lastDollar => simp [Hooq.fillToks, TT.isPunct]

theorem fillToks_path {g : String → List TT} : ∀ {a : List TT}, (∀ t ∈ a, t.InPath) → ∀ b : List TT,
    fillToks g false (a ++ b) = a ++ fillToks g false b
  | [], _, _ => rfl
  | t :: a, h, b => by
    have ih := fillToks_path (g := g) (a := a) (fun u hu => h u (by simp [hu])) b
    have ht := h t (by simp)
    cases t with
    | ident s sp => simp [fillToks, TT.isPunct, TT.fillToks, ih]
    | punct c sp =>
      obtain rfl : c = ':' := ht
      simp [fillToks, TT.isPunct, TT.fillToks, ih]
    | _ => exact absurd ht (by simp [TT.InPath])

/-- What the variables of the built-in methods stand for. -/
def varToks (a : Where) (b : String → Option Value) (m : MetaRec) (x : String) : List TT :=
  if x = "path" then [.lit (.str a.path) .callSite]
  else if x = "line" then [.lit (.usize a.line) .callSite]
  else if x = "col" then [.lit (.usize a.col) .callSite]
  else if x = "source" then [.sourceHole .callSite]
  else if x = "expr" then [.exprHole .callSite]
  else if x = "hooq_meta" then [.metaHole m .callSite]
  else ((b "level").map fun v => TT.valueHole v .callSite).toList

/-- The variables behind the head of a method. -/
def Locals.head (L : Locals Ty) (a : Where) (expr : String) : Locals Ty :=
  (((L.set "path" (.slice a.path)).set "line" (.num a.line)).set "col" (.num a.col)).set "expr" (.slice expr)

theorem ends_head {a : Where} {b : String → Option Value} {m : MetaRec} (hh : ∀ t ∈ hp, t.InPath)
    {mac text : String} (ht : W.excerpt mac = some text) {rest : List TT} {eff : Effect Ty}
    (h : Runs W hp (L.head a text) (fillToks (varToks a b m) false rest) eff) :
    Runs W hp L (fillToks (varToks a b m) false (presetHead hp mac ++ rest)) eff := by
  have e : presetHead hp mac ++ rest =
      [tkId "let", tkId "path", tkP '=', tkP '$', tkId "path", tkP ';',
       tkId "let", tkId "line", tkP '=', tkP '$', tkId "line", tkP ';',
       tkId "let", tkId "col", tkP '=', tkP '$', tkId "col", tkP ';',
       tkId "let", tkId "expr", tkP '='] ++ (hp ++ (tkP ':' :: tkP ':' :: tkId mac :: tkP '!' ::
        tkParen (tkVar "source") :: tkP ';' :: rest)) := by
    simp [presetHead, tkLet, tkVar]
  have e' : fillToks (varToks a b m) false (presetHead hp mac ++ rest) =
      tkId "let" :: tkId "path" :: tkP '=' :: ([.lit (.str a.path) .callSite] ++ tkP ';' ::
      (tkId "let" :: tkId "line" :: tkP '=' :: ([.lit (.usize a.line) .callSite] ++ tkP ';' ::
      (tkId "let" :: tkId "col" :: tkP '=' :: ([.lit (.usize a.col) .callSite] ++ tkP ';' ::
      (tkId "let" :: tkId "expr" :: tkP '=' :: ((hp ++ [tkP ':', tkP ':', tkId mac, tkP '!',
        tkParen [.sourceHole .callSite]]) ++ tkP ';' :: fillToks (varToks a b m) false rest))))))) := by
    rw [e]
    simp [fillToks, fillToks_path hh, TT.fillToks, TT.isPunct, tkId, tkP, tkParen, tkVar, varToks]
  rw [e']
  exact .bind (.pure .str) (.bind (.pure .num) (.bind (.pure .num) (.bind (.excerpt ht) h)))

theorem set_same (L : Locals Ty) (x : String) (v : RVal Ty) : L.set x v x = some v := by
  simp [Locals.set]

theorem set_other (L : Locals Ty) {x y : String} (v : RVal Ty) (h : y ≠ x) : L.set x v y = L y := by
  simp [Locals.set, h]

/-! ## Format strings -/

theorem format_default (a : Where) (expr : String) (e : Dyn Ty) :
    W.format ((L.set "e" (.any e)).head a expr) "[{path}:{line}:{col}] {e:?}\n{expr}" =
      some ("[" ++ a.text ++ "] " ++ W.debug e ++ "\n" ++ expr) := by
  have e1 : piecesFrom none "[{path}:{line}:{col}] {e:?}\n{expr}".toList =
      some [.char '[', .arg "path".toList false, .char ':', .arg "line".toList false, .char ':', .arg "col".toList false,
        .char ']', .char ' ', .arg "e".toList true, .char '\n', .arg "expr".toList false] := by decide +kernel
  have e2 : "] " = "]" ++ " " := rfl
  simp only [World.format, e1]
  simp [World.fill, Locals.head, Locals.set, World.shown, Where.text, String.append_assoc]
  simp only [e2, String.append_assoc]

theorem format_log (a : Where) (expr : String) (e : Dyn Ty) (v : RVal Ty) :
    W.format (((L.set "e" (.any e)).head a expr).set "level" v) "({path}:{line}:{col}) {e}\n{expr}" =
      some ("(" ++ a.text ++ ") " ++ W.display e ++ "\n" ++ expr) := by
  have e1 : piecesFrom none "({path}:{line}:{col}) {e}\n{expr}".toList =
      some [.char '(', .arg "path".toList false, .char ':', .arg "line".toList false, .char ':', .arg "col".toList false,
        .char ')', .char ' ', .arg "e".toList false, .char '\n', .arg "expr".toList false] := by decide +kernel
  have e2 : ") " = ")" ++ " " := rfl
  simp only [World.format, e1]
  simp [World.fill, Locals.head, Locals.set, World.shown, Where.text, String.append_assoc]
  simp only [e2, String.append_assoc]

theorem format_context (a : Where) (expr : String) :
    W.format (L.head a expr) "[{path}:{line}:{col}]\n{expr}" = some ("[" ++ a.text ++ "]\n" ++ expr) := by
  have e1 : piecesFrom none "[{path}:{line}:{col}]\n{expr}".toList =
      some [.char '[', .arg "path".toList false, .char ':', .arg "line".toList false, .char ':', .arg "col".toList false,
        .char ']', .char '\n', .arg "expr".toList false] := by decide +kernel
  have e2 : "]\n" = "]" ++ "\n" := rfl
  simp only [World.format, e1]
  simp [World.fill, Locals.head, Locals.set, World.shown, Where.text, String.append_assoc]
  simp only [e2, String.append_assoc]

/-! ## The methods of the built-in flavors -/

section
variable {a : Where} {b : String → Option Value} {m : MetaRec} {pretty line : String} {dot sp : Span}

theorem does_default (hh : ∀ t ∈ hp, t.InPath) (ht : W.excerpt "excerpted_pretty_stringify" = some pretty) (e : Dyn Ty) :
    Does W hp L (.punct '.' dot :: (fillToks (varToks a b m) false (defaultMethodTokens hp).tail).map (TT.setSpan sp))
      (.err e) (.err e) [.printed ("[" ++ a.text ++ "] " ++ W.debug e ++ "\n" ++ pretty ++ "\n")] := by
  have h := ends_head (L := L.set "e" (.any e)) (a := a) (b := b) (m := m) hh ht
    (rest := tkAbs ["std", "eprintln"] ++
      [tkP '!', tkParen [tkStr "[{path}:{line}:{col}] {e:?}\n{expr}"], tkP ';'])
    (.print absPath_tkAbs (format_default a pretty e) : Runs W hp _ (tkAbs ["std", "eprintln"] ++
      [tkP '!', tkParen [tkStr "[{path}:{line}:{col}] {e:?}\n{expr}"], tkP ';']) _)
  have h' := Does.lookErr (f := "inspect_err") (s1 := dot) (s2 := sp) (s3 := .callSite) (s4 := .callSite)
    (s5 := .callSite) (s6 := .callSite) (s7 := sp) rfl h
  simpa [defaultMethodTokens, fillToks, TT.fillToks, TT.isPunct, tkId, tkP, tkParen, tkBrace, TT.setSpan] using h'

theorem does_log (hh : ∀ t ∈ hp, t.InPath) (ht : W.excerpt "excerpted_pretty_stringify" = some pretty) (e : Dyn Ty)
    {v : Value} (hv : b "level" = some v) (sc : Scope Ty) :
    Does W hp (Locals.ofScope sc)
      (.punct '.' dot :: (fillToks (varToks a b m) false (logMethodTokens hp).tail).map (TT.setSpan sp))
      (.err e) (.err e) [.logged (W.eval (W.levelScope sc e a pretty) v)
        ("(" ++ a.text ++ ") " ++ W.display e ++ "\n" ++ pretty)] := by
  have h := ends_head (L := (Locals.ofScope sc).set "e" (.any e)) (a := a) (b := b) (m := m) hh ht
    (rest := tkLet "level" (tkVar "level") ++ tkAbs ["log", "log"] ++
      [tkP '!', tkParen [tkId "level", tkP ',', tkStr "({path}:{line}:{col}) {e}\n{expr}"], tkP ';'])
    (eff := .event (.logged (W.asAny (.any (W.eval (W.levelScope sc e a pretty) v)))
      ("(" ++ a.text ++ ") " ++ W.display e ++ "\n" ++ pretty)))
    (by
      have : Runs W hp (((Locals.ofScope sc).set "e" (.any e)).head a pretty)
          (tkId "let" :: tkId "level" :: tkP '=' :: ([.valueHole v .callSite] ++ tkP ';' ::
            (tkAbs ["log", "log"] ++ [tkP '!', tkParen ([tkId "level"] ++ [tkP ',',
              tkStr "({path}:{line}:{col}) {e}\n{expr}"]), tkP ';'])))
          (.event (.logged (W.asAny (.any (W.eval (W.levelScope sc e a pretty) v)))
            ("(" ++ a.text ++ ") " ++ W.display e ++ "\n" ++ pretty))) :=
        .bind (.pure .user) (.log (lv := [tkId "level"]) absPath_tkAbs (.pure (.var (set_same _ _ _)))
          (format_log a pretty e _))
      simpa [tkAbs, tkId, tkP, tkParen, tkVar, tkLet, tkStr, fillToks, TT.fillToks, TT.isPunct, varToks, hv] using this)
  have h' := Does.lookErr (f := "inspect_err") (s1 := dot) (s2 := sp) (s3 := .callSite) (s4 := .callSite)
    (s5 := .callSite) (s6 := .callSite) (s7 := sp) rfl h
  simpa [logMethodTokens, fillToks, TT.fillToks, TT.isPunct, tkId, tkP, tkParen, tkBrace, TT.setSpan,
    Machine.asAny] using h'

theorem does_tracing (hh : ∀ t ∈ hp, t.InPath) (ht : W.excerpt "one_line_stringify" = some line) (e : Dyn Ty)
    {v : Value} (hv : b "level" = some v) (sc : Scope Ty) :
    Does W hp (Locals.ofScope sc)
      (.punct '.' dot :: (fillToks (varToks a b m) false (tracingMethodTokens hp).tail).map (TT.setSpan sp))
      (.err e) (.err e) [.traced (W.eval (W.levelScope sc e a line) v)
        [("path", .value (.slice a.path)), ("line", .value (.num a.line)), ("col", .value (.num a.col)),
         ("error", .shown (W.display e)), ("expr", .value (.slice line))]] := by
  have h := ends_head (L := (Locals.ofScope sc).set "e" (.any e)) (a := a) (b := b) (m := m) hh ht
    (rest := tkAbs ["tracing", "event"] ++
      [tkP '!', tkParen (tkVar "level" ++ [tkP ',', tkId "path", tkP ',', tkId "line", tkP ',',
        tkId "col", tkP ',', tkId "error", tkP '=', tkP '%', tkId "e", tkP ',', tkId "expr", tkP ',']), tkP ';'])
    (eff := .event (.traced (W.asAny (.any (W.eval (W.levelScope sc e a line) v)))
        [("path", .value (.slice a.path)), ("line", .value (.num a.line)), ("col", .value (.num a.col)),
         ("error", .shown (W.display e)), ("expr", .value (.slice line))]))
    (by
      have : Runs W hp (((Locals.ofScope sc).set "e" (.any e)).head a line) (tkAbs ["tracing", "event"] ++
          [tkP '!', tkParen ([.valueHole v .callSite] ++ tkP ',' :: [tkId "path", tkP ',', tkId "line", tkP ',',
            tkId "col", tkP ',', tkId "error", tkP '=', tkP '%', tkId "e", tkP ',', tkId "expr", tkP ',']), tkP ';'])
          (.event (.traced (W.asAny (.any (W.eval (W.levelScope sc e a line) v)))
            [("path", .value (.slice a.path)), ("line", .value (.num a.line)), ("col", .value (.num a.col)),
             ("error", .shown (W.display e)), ("expr", .value (.slice line))])) := by
        refine .trace absPath_tkAbs (.pure .user) ?_
        refine .value (by simp [Locals.head, Locals.set]) (.value (by simp [Locals.head, Locals.set])
          (.value (by simp [Locals.head, Locals.set]) (.shown (v := .any e) (by simp [Locals.head, Locals.set]) rfl
          (.value (by simp [Locals.head, Locals.set]) .nil))))
      simpa [tkAbs, tkId, tkP, tkParen, tkVar, fillToks, TT.fillToks, TT.isPunct, varToks, hv] using this)
  have h' := Does.lookErr (f := "inspect_err") (s1 := dot) (s2 := sp) (s3 := .callSite) (s4 := .callSite)
    (s5 := .callSite) (s6 := .callSite) (s7 := sp) rfl h
  simpa [tracingMethodTokens, fillToks, TT.fillToks, TT.isPunct, tkId, tkP, tkParen, tkBrace, TT.setSpan,
    Machine.asAny] using h'

theorem ends_context (hh : ∀ t ∈ hp, t.InPath) (ht : W.excerpt "excerpted_pretty_stringify" = some pretty) :
    Runs W hp L (fillToks (varToks a b m) false (presetHead hp "excerpted_pretty_stringify" ++
      [tkId "format", tkP '!', tkParen [tkStr "[{path}:{line}:{col}]\n{expr}"]]))
      (.value (.owned ("[" ++ a.text ++ "]\n" ++ pretty))) :=
  ends_head hh ht (.value (.format (format_context a pretty)) :
    Runs W hp _ [tkId "format", tkP '!', tkParen [tkStr "[{path}:{line}:{col}]\n{expr}"]] _)

/-- The method of the built-in flavor at a path, for any result. -/
theorem does_preset (hh : ∀ t ∈ hp, t.InPath) (hpretty : W.excerpt "excerpted_pretty_stringify" = some pretty)
    (hline : W.excerpt "one_line_stringify" = some line) (sc : Scope Ty) {q : List String} {x : String}
    (hq : q.head? = some x)
    (hx : x ∈ ["default", "empty", "log", "anyhow", "eyre", "color_eyre", "tracing"])
    (hv : (x = "log" ∨ x = "tracing") → ∃ v, b "level" = some v) (c : Bool) (r : Res Ty) :
    Does W hp (Locals.ofScope sc) ((Method.parse c (presetTokens hp q)).lead ++
        (fillToks (varToks a b m) false (Method.parse c (presetTokens hp q)).template).map (TT.setSpan sp)) r
      (W.outcome sc x (b "level") a pretty line r).1 (W.outcome sc x (b "level") a pretty line r).2 := by
  simp only [List.mem_cons, List.not_mem_nil, or_false] at hx
  rcases hx with rfl | rfl | rfl | rfl | rfl | rfl | rfl
  · have e : presetTokens hp q = defaultMethodTokens hp := by simp [presetTokens, hq]
    have e3 : (Method.parse c (defaultMethodTokens hp)).lead = [.punct '.' .callSite] := by cases c <;> rfl
    have e4 : (Method.parse c (defaultMethodTokens hp)).template = (defaultMethodTokens hp).tail := by cases c <;> rfl
    rw [e, e3, e4]
    cases r with
    | ok v =>
      simp only [defaultMethodTokens, List.tail_cons, List.cons_append, List.nil_append]
      simp only [fillToks, TT.fillToks, TT.isPunct, tkId, tkP, tkParen, tkBrace]
      exact .lookOk rfl
    | err e =>
      have := does_default (L := Locals.ofScope sc) (a := a) (b := b) (m := m) (dot := .callSite) (sp := sp) hh hpretty e
      simpa [World.outcome, World.reports] using this
  · have e : presetTokens hp q = emptyMethodTokens := by simp [presetTokens, hq]
    have e3 : (Method.parse c emptyMethodTokens).lead = [] := by cases c <;> rfl
    have e4 : (Method.parse c emptyMethodTokens).template = emptyMethodTokens := by cases c <;> rfl
    rw [e, e3, e4]
    have : Does W hp (Locals.ofScope sc) [.exprHole sp] r r [] := .expr
    cases r <;> simpa [World.outcome, World.reports, emptyMethodTokens, tkVar, tkP, tkId, fillToks, TT.isPunct, varToks,
      TT.setSpan] using this
  · have e : presetTokens hp q = logMethodTokens hp := by simp [presetTokens, hq]
    have e3 : (Method.parse c (logMethodTokens hp)).lead = [.punct '.' .callSite] := by cases c <;> rfl
    have e4 : (Method.parse c (logMethodTokens hp)).template = (logMethodTokens hp).tail := by cases c <;> rfl
    rw [e, e3, e4]
    obtain ⟨v, hv⟩ := hv (.inl rfl)
    cases r with
    | ok v =>
      simp only [logMethodTokens, List.tail_cons, List.cons_append, List.nil_append]
      simp only [fillToks, TT.fillToks, TT.isPunct, tkId, tkP, tkParen, tkBrace]
      exact .lookOk rfl
    | err e =>
      have := does_log (a := a) (b := b) (m := m) (dot := .callSite) (sp := sp) hh hpretty e hv sc
      simpa [World.outcome, World.reports, hv] using this
  · have e : presetTokens hp q = anyhowMethodTokens hp := by simp [presetTokens, hq]
    have e3 : (Method.parse c (anyhowMethodTokens hp)).lead = [.punct '.' .callSite] := by cases c <;> rfl
    have e4 : (Method.parse c (anyhowMethodTokens hp)).template = (anyhowMethodTokens hp).tail := by cases c <;> rfl
    rw [e, e3, e4]
    cases r with
    | ok v =>
      simp only [anyhowMethodTokens, List.tail_cons, List.cons_append, List.nil_append]
      simp only [fillToks, TT.fillToks, TT.isPunct, tkId, tkP, tkParen, tkBrace]
      exact .wrapOk (.inl rfl)
    | err e =>
      have := Does.wrapErr (W := W) (L := Locals.ofScope sc) (f := "with_context") (e := e) (s1 := .callSite) (s2 := sp)
        (s3 := .callSite) (s4 := .callSite) (s5 := .callSite) (s6 := sp) (.inl rfl) (ends_context (a := a) (b := b) (m := m) hh hpretty)
      simpa [World.outcome, World.reports, anyhowMethodTokens, fillToks, TT.fillToks, TT.isPunct, tkId, tkP, tkParen,
        tkBrace, TT.setSpan] using this
  · have e : presetTokens hp q = eyreMethodTokens hp := by simp [presetTokens, hq]
    have e3 : (Method.parse c (eyreMethodTokens hp)).lead = [.punct '.' .callSite] := by cases c <;> rfl
    have e4 : (Method.parse c (eyreMethodTokens hp)).template = (eyreMethodTokens hp).tail := by cases c <;> rfl
    rw [e, e3, e4]
    cases r with
    | ok v =>
      simp only [eyreMethodTokens, List.tail_cons, List.cons_append, List.nil_append]
      simp only [fillToks, TT.fillToks, TT.isPunct, tkId, tkP, tkParen, tkBrace]
      exact .wrapOk (.inr rfl)
    | err e =>
      have := Does.wrapErr (W := W) (L := Locals.ofScope sc) (f := "wrap_err_with") (e := e) (s1 := .callSite) (s2 := sp)
        (s3 := .callSite) (s4 := .callSite) (s5 := .callSite) (s6 := sp) (.inr rfl) (ends_context (a := a) (b := b) (m := m) hh hpretty)
      simpa [World.outcome, World.reports, eyreMethodTokens, fillToks, TT.fillToks, TT.isPunct, tkId, tkP, tkParen,
        tkBrace, TT.setSpan] using this
  · have e : presetTokens hp q = eyreMethodTokens hp := by simp [presetTokens, hq]
    have e3 : (Method.parse c (eyreMethodTokens hp)).lead = [.punct '.' .callSite] := by cases c <;> rfl
    have e4 : (Method.parse c (eyreMethodTokens hp)).template = (eyreMethodTokens hp).tail := by cases c <;> rfl
    rw [e, e3, e4]
    cases r with
    | ok v =>
      simp only [eyreMethodTokens, List.tail_cons, List.cons_append, List.nil_append]
      simp only [fillToks, TT.fillToks, TT.isPunct, tkId, tkP, tkParen, tkBrace]
      exact .wrapOk (.inr rfl)
    | err e =>
      have := Does.wrapErr (W := W) (L := Locals.ofScope sc) (f := "wrap_err_with") (e := e) (s1 := .callSite) (s2 := sp)
        (s3 := .callSite) (s4 := .callSite) (s5 := .callSite) (s6 := sp) (.inr rfl) (ends_context (a := a) (b := b) (m := m) hh hpretty)
      simpa [World.outcome, World.reports, eyreMethodTokens, fillToks, TT.fillToks, TT.isPunct, tkId, tkP, tkParen,
        tkBrace, TT.setSpan] using this
  · have e : presetTokens hp q = tracingMethodTokens hp := by simp [presetTokens, hq]
    have e3 : (Method.parse c (tracingMethodTokens hp)).lead = [.punct '.' .callSite] := by cases c <;> rfl
    have e4 : (Method.parse c (tracingMethodTokens hp)).template = (tracingMethodTokens hp).tail := by cases c <;> rfl
    rw [e, e3, e4]
    obtain ⟨v, hv⟩ := hv (.inr rfl)
    cases r with
    | ok v =>
      simp only [tracingMethodTokens, List.tail_cons, List.cons_append, List.nil_append]
      simp only [fillToks, TT.fillToks, TT.isPunct, tkId, tkP, tkParen, tkBrace]
      exact .lookOk rfl
    | err e =>
      have := does_tracing (a := a) (b := b) (m := m) (dot := .callSite) (sp := sp) hh hline e hv sc
      simpa [World.outcome, World.reports, hv] using this

theorem does_hook (sc : Scope Ty) (c : Bool) (r : Res Ty) :
    Does W hp (Locals.ofScope sc) ((Method.parse c hookMethodTokens).lead ++
        (fillToks (varToks a b m) false (Method.parse c hookMethodTokens).template).map (TT.setSpan sp)) r
      (W.hook r W.source (runMeta W.eval W.str sc m)).1 (W.hook r W.source (runMeta W.eval W.str sc m)).2 := by
  have e3 : (Method.parse c hookMethodTokens).lead = [.punct '.' .callSite] := by cases c <;> rfl
  have e4 : (Method.parse c hookMethodTokens).template = hookMethodTokens.tail := by cases c <;> rfl
  rw [e3, e4]
  have := Does.hook (W := W) (hp := hp) (f := "hook") (r := r) (s1 := .callSite) (s2 := sp) (s3 := .callSite)
    (s4 := .callSite) (s5 := .callSite) (s6 := sp) rfl
    (.value (.record (sp := .callSite) (computes_meta (M := W.toMachine) sc W.source m)))
  simpa [hookMethodTokens, tkVar, tkP, tkId, tkParen, tkBrace, fillToks, TT.fillToks, TT.isPunct, varToks,
    TT.setSpan] using this

end

/-! ## The hooks of an expansion -/

/-- The tokens of every hook of an expansion under a built-in flavor. -/
theorem preset_toks {env : Env} {args : List Meta} {s : Settings} {i i' : Item}
    {uses : List Path} {helpers : List TT} {doc : PresetDoc} (hp : Builtin env args helpers doc)
    (hs : rootSettings env args = .ok s)
    (h : hooqImpls env args i = .ok (uses, i')) {p : List Nat} {d : Data} {up : List Data}
    (hu : i.chain p = some (d :: up)) (hr : reached env s (d :: up) = true)
    (hm : ∀ e ∈ d :: up, ∀ a ∈ e.seen, methodOf env a = none) :
    ∃ n', i'.tree.sub p = some n' ∧ ∀ mk ∈ n'.marks, ∃ sp co rec,
      let b := fun k => (nearest (bindingOf env k) (targetUp mk.1.kind (d :: up))).or (s.bindings.get? k)
      IsAnchor (d :: up) n' mk.1.kind sp ∧
      (doc.path.head? = some "hook" → Listing b rec.bindings ∧ IsFileOf sp.file rec.file ∧ rec.line = sp.line ∧
        rec.col = sp.col ∧ rec.path = sp.file ∧ rec.count = countSpec mk.1.count mk.1.kind) ∧
      (∀ lev, doc.level = some lev → ∃ v, b "level" = some v ∧
        (nearest (bindingOf env "level") (targetUp mk.1.kind (d :: up)) = none →
          ∃ pa, v.view = .path pa ∧ pa.IsAbs lev ∧ v.text = absText lev)) ∧
      mk.1.toks = (Method.parse co (presetTokens helpers doc.path)).lead ++
        (fillToks (varToks ⟨sp.file, sp.line, sp.col⟩ b rec) false
          (Method.parse co (presetTokens helpers doc.path)).template).map (TT.setSpan sp) := by
  obtain ⟨n', h1, h2⟩ := hook_text hs (hp.nodup hs) h hu hr
  refine ⟨n', h1, fun m hm' => ?_⟩
  obtain ⟨sp, c, out, h3, hcount, h5, h6⟩ := h2 m hm'
  have hsub : ∀ e ∈ targetUp m.1.kind (d :: up), e ∈ d :: up := by
    intro e he
    cases hk : m.1.kind <;> rw [hk] at he
    · exact List.mem_of_mem_tail he
    · exact List.mem_of_mem_tail he
    · exact he
  generalize targetUp m.1.kind (d :: up) = tup at h5 h6 hsub ⊢
  obtain ⟨f, g1, ⟨-, -, -, -, -, e6, e7⟩, ⟨lv, g2, -⟩, -⟩ := hp.settings hs
  obtain ⟨co, g3⟩ := hp.method hs
  have em : methodAt env s tup = s.method := by
    rw [methodAt, lastSet_none fun a ha => ?_]
    · rfl
    · obtain ⟨e, he, ha⟩ := mem_attrsOver ha
      exact hm e (hsub e he) a ha
  have eb : (siteAt env s tup m.1.kind sp c).binding =
      fun k => (nearest (bindingOf env k) tup).or (s.bindings.get? k) := by
    funext k; rw [← nearest_eq]; rfl
  rw [em] at h5 h6
  rw [← e6] at g2
  have nm : ∀ {v : MetaVar} {x : String}, MetaVar.ofString x = some v → v.Named x := fun h => (metaVar_named _ _).1 h
  let mk (l : List (String × Value)) (f : String) : MetaRec :=
    { line := sp.line, col := sp.col, path := sp.file, file := f, count := countSpec c m.1.kind, bindings := l }
  obtain ⟨l, hl⟩ : ∃ l, ∀ l', Listing (siteAt env s tup m.1.kind sp c).binding l' → l' = l := by
    by_cases hex : ∃ l, Listing (siteAt env s tup m.1.kind sp c).binding l
    · obtain ⟨l, hl⟩ := hex
      exact ⟨l, fun l' hl' => listing_unique hl' hl⟩
    · exact ⟨[], fun l' hl' => absurd ⟨l', hl'⟩ hex⟩
  refine ⟨sp, co, mk l (fileName sp), h3, ?_, ?_, ?_⟩
  · intro hq
    have hd : DollarThen (TT.IsName "hooq_meta") s.method.template := by
      have e : (Method.parse co (presetTokens helpers doc.path)).template = hookMethodTokens.tail := by
        simp only [presetTokens, hq, Option.some.injEq, String.reduceEq, if_false, if_true]
        cases co <;> rfl
      rw [g3, e]
      exact .later (.inside (.later (.later (.inside (.here ⟨_, rfl⟩)))))
    obtain ⟨x, sp', o, ⟨_, hx⟩, ho⟩ := h5.dollarThen hd
    simp only [TT.ident.injEq] at hx
    obtain ⟨rfl, -⟩ := hx
    rw [varText_named (v := .hooqMeta) (nm rfl)] at ho
    obtain ⟨l', -, hl', -, -⟩ := ho
    refine ⟨?_, fileName_spec sp, rfl, rfl, rfl, by rw [hcount]⟩
    rw [← eb]
    show Listing _ l
    rw [← hl l' hl']
    exact hl'
  · intro lev hlev
    obtain ⟨v, pa, k1, k2, k3⟩ := g1.level lev hlev
    cases hn : nearest (bindingOf env "level") tup with
    | some w => exact ⟨w, by simp [hn], by simp⟩
    | none => exact ⟨v, by simp [hn, e7, k1, AMap.get?], fun _ => ⟨pa, k2, k3⟩⟩
  · rw [h6, ← g3]
    congr 2
    refine h5.fillToks (P := presetVars lv) ?_ g2
    rintro x o hx ho
    rcases hx with hx | ⟨-, rfl⟩
    · simp only [List.mem_cons, List.not_mem_nil, or_false] at hx
      rcases hx with rfl | rfl | rfl | rfl | rfl | rfl
      · rw [varText_named (v := .path) (nm rfl)] at ho
        exact ho
      · rw [varText_named (v := .line) (nm rfl)] at ho
        exact ho
      · rw [varText_named (v := .column) (nm rfl)] at ho
        exact ho
      · rw [varText_named (v := .source) (nm rfl)] at ho
        exact ho
      · rw [varText_named (v := .expr) (nm rfl)] at ho
        exact ho
      · rw [varText_named (v := .hooqMeta) (nm rfl)] at ho
        obtain ⟨l', g, hl', hg, ho⟩ := ho
        rw [hl l' hl', (isFileOf_iff sp g).1 hg] at ho
        exact ho
    · have no : ∀ m, ¬ MetaVar.Named m "level" := by
        intro m hm
        have := (metaVar_named _ _).2 hm
        cases this
      obtain ⟨v, hv, ho⟩ := (varText_binding no _).1 ho
      rw [eb] at hv
      simp only at hv
      simp [varToks, hv, ho]

theorem preset_head {doc : PresetDoc} (h : doc ∈ presetDocs) :
    ∃ x, doc.path.head? = some x ∧
      x ∈ ["default", "empty", "hook", "log", "anyhow", "eyre", "color_eyre", "tracing"] ∧
      ((x = "log" ∨ x = "tracing") → ∃ lev, doc.level = some lev) := by
  simp only [presetDocs, List.mem_cons, List.not_mem_nil, or_false] at h
  rcases h with rfl | rfl | rfl | rfl | rfl | rfl | rfl | rfl | rfl | rfl | rfl | rfl | rfl | rfl | rfl | rfl | rfl | rfl
    <;> exact ⟨_, rfl, by simp, by simp [logDoc, tracingDoc]⟩

/-- C94.  What a hook of an expansion does under a built-in flavor other than `hook`, where
no attribute sets the method: an `Ok` stays and nothing is reported; an error is reported
as the reference says, with the place of the target, and stays (`default`, `log`,
`tracing`), or gets the place in front (`anyhow`, `eyre`), and under `empty` nothing
happens.  Nothing else can be read from the tokens. -/
theorem C94_reports {env : Env} {args : List Meta} {s : Settings} {i i' : Item}
    {uses : List Path} {helpers : List TT} {doc : PresetDoc} (hp : Builtin env args helpers doc)
    (hh : ∀ t ∈ helpers, t.InPath) {flavor : String} (hq : doc.path.head? = some flavor) (hk : flavor ≠ "hook")
    (hs : rootSettings env args = .ok s)
    (h : hooqImpls env args i = .ok (uses, i')) {p : List Nat} {d : Data} {up : List Data}
    (hu : i.chain p = some (d :: up)) (hr : reached env s (d :: up) = true)
    (hm : ∀ e ∈ d :: up, ∀ a ∈ e.seen, methodOf env a = none) :
    ∃ n', i'.tree.sub p = some n' ∧ ∀ mk ∈ n'.marks, ∃ sp,
      let b := fun k => (nearest (bindingOf env k) (targetUp mk.1.kind (d :: up))).or (s.bindings.get? k)
      IsAnchor (d :: up) n' mk.1.kind sp ∧
      (∀ lev, doc.level = some lev → ∃ v, b "level" = some v ∧
        (nearest (bindingOf env "level") (targetUp mk.1.kind (d :: up)) = none →
          ∃ pa, v.view = .path pa ∧ pa.IsAbs lev ∧ v.text = absText lev)) ∧
      ∀ {Ty : Nat → Type} (W : World Ty) (sc : Scope Ty) {pretty line : String},
        W.excerpt "excerpted_pretty_stringify" = some pretty → W.excerpt "one_line_stringify" = some line →
        ∀ r r' evs, Does W helpers (Locals.ofScope sc) mk.1.toks r r' evs ↔
          (r', evs) = W.outcome sc flavor (b "level") ⟨sp.file, sp.line, sp.col⟩ pretty line r := by
  obtain ⟨n', h1, h2⟩ := preset_toks hp hs h hu hr hm
  refine ⟨n', h1, fun m hm' => ?_⟩
  obtain ⟨sp, co, rec, h3, -, h5, h6⟩ := h2 m hm'
  refine ⟨sp, h3, h5, fun {Ty} W sc {pretty line} hpretty hline r r' evs => ?_⟩
  obtain ⟨x, hx, hx', hx''⟩ := preset_head hp.row
  obtain rfl : flavor = x := Option.some.inj (hq.symm.trans hx)
  have hd := does_preset (W := W) (a := ⟨sp.file, sp.line, sp.col⟩)
    (b := fun k => (nearest (bindingOf env k) (targetUp m.1.kind (d :: up))).or (s.bindings.get? k))
    (m := rec) (sp := sp) hh hpretty hline sc hq
    (by simp only [List.mem_cons, List.not_mem_nil, or_false] at hx' ⊢; tauto)
    (fun hl => by
      obtain ⟨lev, hlev⟩ := hx'' hl
      obtain ⟨v, hv, -⟩ := h5 lev hlev
      exact ⟨v, hv⟩) co r
  rw [← h6] at hd
  constructor
  · intro g
    obtain ⟨e1, e2⟩ := hd.unique hh g
    rw [← e1, ← e2]
  · intro g
    rw [← g] at hd
    exact hd

/-- C94, the flavor `hook`: the user's method gets the result and a record of the place,
the file, the count, the source and the bindings in force, whatever the result is. -/
theorem C94_hook {env : Env} {args : List Meta} {s : Settings} {i i' : Item}
    {uses : List Path} {helpers : List TT} {doc : PresetDoc} (hp : Builtin env args helpers doc)
    (hh : ∀ t ∈ helpers, t.InPath) (hq : doc.path.head? = some "hook")
    (hs : rootSettings env args = .ok s)
    (h : hooqImpls env args i = .ok (uses, i')) {p : List Nat} {d : Data} {up : List Data}
    (hu : i.chain p = some (d :: up)) (hr : reached env s (d :: up) = true)
    (hm : ∀ e ∈ d :: up, ∀ a ∈ e.seen, methodOf env a = none) :
    ∃ n', i'.tree.sub p = some n' ∧ ∀ mk ∈ n'.marks, ∃ sp, IsAnchor (d :: up) n' mk.1.kind sp ∧
      ∀ {Ty : Nat → Type} (W : World Ty) (sc : Scope Ty), ∃ g : HooqMeta Ty,
        (g.line = sp.line ∧ g.column = sp.col ∧ g.path = sp.file ∧ IsFileOf sp.file g.file ∧
          g.count = countSpec mk.1.count mk.1.kind ∧
          ∀ k pl, BoundTo g.bindings k pl ↔ ∃ e,
            (nearest (bindingOf env k) (targetUp mk.1.kind (d :: up))).or (s.bindings.get? k) = some e ∧
            pl.expr = e.text ∧ pl.value = W.eval (sc.bind "expr" (W.str e.text)) e) ∧
        ∀ r r' evs, Does W helpers (Locals.ofScope sc) mk.1.toks r r' evs ↔ (r', evs) = W.hook r W.source g := by
  obtain ⟨n', h1, h2⟩ := preset_toks hp hs h hu hr hm
  refine ⟨n', h1, fun m hm' => ?_⟩
  obtain ⟨sp, co, rec, h3, h4, -, h6⟩ := h2 m hm'
  obtain ⟨k1, k2, k3, k4, k5, k6⟩ := h4 hq
  refine ⟨sp, h3, fun {Ty} W sc => ⟨runMeta W.eval W.str sc rec, ?_, fun r r' evs => ?_⟩⟩
  · obtain ⟨-, e1, e2, e3, e4, e5, e6, -⟩ := C93_get_binding W.toMachine sc W.source k1
      (computes_meta (M := W.toMachine) sc W.source rec)
    exact ⟨e1.trans k3, e2.trans k4, e3.trans k5, e4 ▸ k2, e5.trans k6, e6⟩
  · have hd := does_hook (W := W) (hp := helpers) (a := ⟨sp.file, sp.line, sp.col⟩)
      (b := fun k => (nearest (bindingOf env k) (targetUp m.1.kind (d :: up))).or (s.bindings.get? k))
      (m := rec) (sp := sp) sc co r
    have e : presetTokens helpers doc.path = hookMethodTokens := by simp [presetTokens, hq]
    rw [e] at h6
    rw [← h6] at hd
    constructor
    · intro g
      obtain ⟨e1, e2⟩ := hd.unique hh g
      rw [← e1, ← e2]
    · intro g
      rw [← g] at hd
      exact hd

section
open Ex
set_option maxRecDepth 10000

/-- An error is a number, shown as `E5` and `Err(5)`. -/
def Ex.world : World (fun t => if t = 1 then String else Nat) :=
  { Ex.machine with
    other := fun v => match v with
      | .slice s => ⟨1, s⟩
      | _ => ⟨0, (0 : Nat)⟩
    display := fun _ => "E5"
    debug := fun _ => "Err(5)"
    excerpt := fun m => if m = "excerpted_pretty_stringify" then some "  11> w?\n    |" else some "w?"
    source := "w?"
    wrap := fun _ s _ => ⟨1, s⟩
    hook := fun r _ m => (r, [.printed m.count]) }

/-- `#[hooq(log::warn)]` on a function with `#[hooq::level = expr]`: every hook logs, and
what it logs with is the excerpt, which is what `expr` is there. -/
example : ∃ i' n' m, hooqImpls env logArgs levelled = .ok ([], i') ∧ i'.tree.sub [0, 0] = some n' ∧ n'.marks = [m] ∧
    ∃ sp : Span, Does Ex.world [tkId "helpers"] (Locals.ofScope fun _ => none) m.1.toks (.err ⟨0, (5 : Nat)⟩)
      (.err ⟨0, (5 : Nat)⟩) [.logged ⟨1, "  11> w?\n    |"⟩
        ("(" ++ Where.text ⟨sp.file, sp.line, sp.col⟩ ++ ") E5\n  11> w?\n    |")] := by
  obtain ⟨s, i', n', m, d, up, h1, h2, h3, h4, h5, h6, h7⟩ : ∃ s i' n' m d up, rootSettings env logArgs = .ok s ∧
      hooqImpls env logArgs levelled = .ok ([], i') ∧ levelled.chain [0, 0] = some (d :: up) ∧
      reached env s (d :: up) = true ∧ (∀ e ∈ d :: up, ∀ a ∈ e.seen, methodOf env a = none) ∧
      i'.tree.sub [0, 0] = some n' ∧ n'.marks = [m] ∧
      (nearest (bindingOf env "level") (targetUp m.1.kind (d :: up))).or (s.bindings.get? "level") =
        some ⟨.path (Path.ofIdents ["expr"]), "expr"⟩ := by
    refine ⟨_, _, _, _, _, _, rfl, rfl, rfl, rfl, ?_, rfl, rfl, rfl⟩
    intro d hd a ha
    simp only [List.mem_cons, List.not_mem_nil, or_false] at hd
    rcases hd with rfl | rfl | rfl <;> simp [Data.seen] at ha
    subst ha
    rfl
  refine ⟨i', n', m, h2, h6, h7.1, ?_⟩
  obtain ⟨_, g1, g2⟩ := C94_reports (flavor := "log") Ex.logged_builtin (by simp [TT.InPath, tkId]) rfl (by decide) h1 h2 h3
    h4 h5
  obtain rfl := Option.some.inj (h6.symm.trans g1)
  obtain ⟨sp, -, -, g3⟩ := g2 m (by simp [h7.1])
  refine ⟨sp, (g3 Ex.world _ rfl rfl _ _ _).2 ?_⟩
  simp only [h7.2]
  simp only [World.outcome, World.reports, Ex.world, String.reduceEq, if_false, if_true, Option.map, Option.toList,
    String.append_assoc]
  have e1 : ") E5\n  11> w?\n    |" = ") " ++ ("E5" ++ ("\n" ++ "  11> w?\n    |")) := by decide
  rw [e1]
  congr 3

/-- What `default` prints. -/
example : (World.outcome Ex.world (fun _ => none) "default" none ⟨"src/lib.rs", 11, 6⟩ "  11> w?\n    |" "w?"
    (.err ⟨0, (5 : Nat)⟩)).2 = [.printed "[src/lib.rs:11:6] Err(5)\n  11> w?\n    |\n"] := by
  simp [World.outcome, World.reports, Where.text, Ex.world]
  decide

/-- A method that prints the column in front of the line does something else. -/
example : piecesFrom none "{col}:{line}".toList = some [.arg "col".toList false, .char ':', .arg "line".toList false] := by
  decide +kernel

/-- `{` alone is no format string. -/
example : piecesFrom none "{col".toList = none := by decide +kernel

end

end Hooq
