import Verif.Proof.Erase
import Verif.Props.Placement

/-!
# Nothing else changes (C04, C10)

`cleanItem` erases all hooks (putting a consumed `?` back) and all inert attributes
from a syntax tree.
-/

namespace Hooq

theorem walked {env : Env} {args : List Meta} {s : Settings} {i i' : Item} {uses : List Path}
    (hs : rootSettings env args = .ok s) (h : hooqImpls env args i = .ok (uses, i')) :
    ∃ c', walkItem env (Ctx.new s) i {} = .ok (i', c') := by
  simp only [hooqImpls, hs] at h
  obtain ⟨_, h0, h⟩ := except_bind_ok h
  obtain rfl := Except.ok.inj h0
  obtain ⟨⟨i2, c'⟩, h1, h2⟩ := except_bind_ok h
  simp only [Except.ok.injEq, Prod.mk.injEq] at h2
  obtain ⟨-, rfl⟩ := h2
  exact ⟨c', h1⟩

theorem rootSettings_of_ok {env : Env} {args : List Meta} {i i' : Item} {uses : List Path}
    (h : hooqImpls env args i = .ok (uses, i')) : ∃ s, rootSettings env args = .ok s := by
  simp only [hooqImpls] at h
  obtain ⟨s, h0, _⟩ := except_bind_ok h
  exact ⟨s, h0⟩

/-- C04.  Up to hooks, inert attributes, the attributes on `?` expressions and the
inner attributes of files in macro bodies, the output is the input: same expressions,
statements, items, patterns, operators, separators, positions, in the same order and
nesting. -/
theorem C04_code_kept {env : Env} {args : List Meta} {i i' : Item} {uses : List Path}
    (h : hooqImpls env args i = .ok (uses, i')) : cleanItem true i' = cleanItem true i := by
  obtain ⟨s, hs⟩ := rootSettings_of_ok h
  obtain ⟨c', hw⟩ := walked hs h
  exact eraseItem env true i rfl hw

/-- C04, partial.  If no `?` expression carries foreign attributes and no file in a
macro body has inner attributes, then the output is the input up to hooks and inert
attributes only.  Missing: the two excluded cases, in which attributes are lost
(`C04_attr_lost`). -/
theorem C04_exact_partial {env : Env} {args : List Meta} {i i' : Item} {uses : List Path}
    (h : hooqImpls env args i = .ok (uses, i')) (hp : cleanItem false i = cleanItem true i) :
    cleanItem false i' = cleanItem false i := by
  obtain ⟨s, hs⟩ := rootSettings_of_ok h
  obtain ⟨c', hw⟩ := walked hs h
  exact eraseItem env false i hp hw

/-- C04.  Where inert attributes go: on every node that the macro reaches exactly the
attributes stay that are not inert (`Data.kept`; all stay on nodes whose attributes
are not looked at), except that a consumed `?` loses its attributes; what is not
reached stays literally the same. -/
theorem C04_attributes {env : Env} {args : List Meta} {s : Settings} {i i' : Item}
    {uses : List Path} (hs : rootSettings env args = .ok s) (hb : s.bindings.keys.Nodup)
    (h : hooqImpls env args i = .ok (uses, i')) {p : List Nat} {d : Data} {up : List Data}
    (hu : i.chain p = some (d :: up)) :
    if reached env s (d :: up) then
      ∃ n', i'.tree.sub p = some n' ∧
        (n'.data.attrs = d.kept ∨
          (n'.data.attrs = [] ∧ ∃ q b, d.tag = .question q b ∧ n'.data.tag = .question q true))
    else i'.tree.sub p = i.tree.sub p := by
  split
  · rename_i hr
    obtain ⟨c', hw⟩ := expansion hs h
    obtain ⟨n, n', -, h2, -, -, h3, -⟩ := node_at hb (agrees_new env s) hw hu hr
    refine ⟨n', h2, ?_⟩
    rw [h3]
    split
    · rename_i q b hq
      split
      · exact .inr ⟨rfl, q, b, hq, rfl⟩
      · exact .inl rfl
    · exact .inl rfl
  · rename_i hr
    exact unreached_unchanged hs h hu (by simpa using hr)

/-- The separators of a macro body. -/
def MacBody.seps : MacBody → List Sep
  | .raw _ => []
  | .parsed evs => evs.map fun
    | .file _ _ s | .item _ s | .expr _ s | .stmt _ s => s

theorem cleanEvs_seps (lo : Bool) : ∀ evs : List Ev,
    (MacBody.parsed (cleanEvs lo evs)).seps = (MacBody.parsed evs).seps
  | [] => rfl
  | v :: vs => by
    have := cleanEvs_seps lo vs
    simp only [MacBody.seps, cleanEvs, List.map_cons] at this ⊢
    rw [this]
    cases v <;> rfl

theorem cleanMacBody_seps (lo : Bool) (b : MacBody) : (cleanMacBody lo b).seps = b.seps := by
  cases b with
  | raw ts => rfl
  | parsed evs => exact cleanEvs_seps lo evs

/-- C10.  The walk of a macro body keeps its separators and all code up to hooks and
inert attributes (and the two losses of C04); a body that does not parse as code is
left as it is. -/
theorem C10_code_kept {env : Env} {ctx : Ctx} {b b' : MacBody} {c c' : Counter}
    (h : walkMacBody env ctx b c = .ok (b', c')) :
    cleanMacBody true b' = cleanMacBody true b ∧ b'.seps = b.seps ∧ (∀ ts, b = .raw ts → b' = b) := by
  have h1 := eraseMacBody env true b rfl h
  refine ⟨h1, ?_, ?_⟩
  · rw [← cleanMacBody_seps true b', h1, cleanMacBody_seps]
  · rintro ts rfl
    simp only [walkMacBody] at h
    exact (W.pure_ok h).1.symm

/-- C10, partial: without foreign attributes on `?` and without inner attributes of
files, all attributes other than inert ones are kept too. -/
theorem C10_code_exact_partial {env : Env} {ctx : Ctx} {b b' : MacBody} {c c' : Counter}
    (h : walkMacBody env ctx b c = .ok (b', c')) (hp : cleanMacBody false b = cleanMacBody true b) :
    cleanMacBody false b' = cleanMacBody false b :=
  eraseMacBody env false b hp h

/-- What `reached` means: no node on the way is the left side of an assignment, and
every macro on the way has the macro switch on where it stands. -/
theorem reached_iff (env : Env) (s : Settings) (up : List Data) :
    reached env s up = true ↔
      (∀ d rest, d :: rest <:+ up → d.edge.visit = true) ∧
      (∀ d m rest, d :: m :: rest <:+ up → m.tag = .mac → macrosAt env s (m :: rest) = true) := by
  induction up with
  | nil => simp [reached]
  | cons d up ih =>
    rw [reached_cons]
    simp only [Bool.and_eq_true, ih, List.suffix_cons_iff, List.cons.injEq]
    constructor
    · rintro ⟨⟨h1, h2⟩, h3, h4⟩
      refine ⟨?_, ?_⟩
      · rintro e rest (⟨rfl, -⟩ | h)
        · exact h1
        · exact h3 e rest h
      · rintro e m rest (⟨rfl, rfl⟩ | h) hm
        · simpa [hm] using h2
        · exact h4 e m rest h hm
    · rintro ⟨h1, h2⟩
      refine ⟨⟨h1 d up (.inl ⟨rfl, rfl⟩), ?_⟩, fun e rest h => h1 e rest (.inr h),
        fun e m rest h hm => h2 e m rest (.inr h) hm⟩
      cases up with
      | nil => rfl
      | cons m rest =>
        cases hm : (m.tag == Tag.mac) with
        | false => simp [bne, hm]
        | true =>
          have := h2 d m rest (.inl ⟨rfl, rfl⟩) (by simpa using hm)
          simp [this]

/-- C10.  A `?` anywhere below macro invocations, each with the macro switch on, is
hooked by the same rule as one outside (C01), with the settings in force at its
place. -/
theorem C10_same_rule_question {env : Env} {args : List Meta} {s : Settings} {i i' : Item}
    {uses : List Path} (hs : rootSettings env args = .ok s) (hb : s.bindings.keys.Nodup)
    (h : hooqImpls env args i = .ok (uses, i')) {p : List Nat} {d : Data} {up : List Data}
    {q : Span} {b : Bool} (hu : i.chain p = some (d :: up)) (hq : d.tag = .question q b)
    (hv : ∀ e rest, e :: rest <:+ d :: up → e.edge.visit = true)
    (hm : ∀ e m rest, e :: m :: rest <:+ d :: up → m.tag = .mac → macrosAt env s (m :: rest) = true) :
    ∃ n' k', i'.tree.sub p = some n' ∧ n'.kids = [k'] ∧
      if !skippedAt (d :: up) && (targetsAt env s (d :: up)).question then
        ∃ hk src, k'.marks = [(hk, src)] ∧ hk.kind = .question ∧
          hk.mode = (methodAt env s (d :: up)).mode
      else k'.marks = [] := by
  have := C01_question_placement hs hb h hu hq
  rwa [if_pos ((reached_iff env s _).2 ⟨hv, hm⟩)] at this

/-- C10.  The same for `return` (C02). -/
theorem C10_same_rule_return {env : Env} {args : List Meta} {s : Settings} {i i' : Item}
    {uses : List Path} (hs : rootSettings env args = .ok s) (hb : s.bindings.keys.Nodup)
    (h : hooqImpls env args i = .ok (uses, i')) {p : List Nat} {d : Data} {up : List Data}
    (hu : i.chain p = some (d :: up)) (hq : d.tag = .ret)
    (hv : ∀ e rest, e :: rest <:+ d :: up → e.edge.visit = true)
    (hm : ∀ e m rest, e :: m :: rest <:+ d :: up → m.tag = .mac → macrosAt env s (m :: rest) = true) :
    ∃ n n', i.tree.sub p = some n ∧ i'.tree.sub p = some n' ∧ n'.data.tag = .ret ∧
      ((n.kids = [] ∧ n'.kids = []) ∨
       ∃ k k', n.kids = [k] ∧ n'.kids = [k'] ∧
        if !skippedAt (d :: up) && (targetsAt env s (d :: up)).ret &&
            (endsIn k'.bare.callee (tailIdentsAt env s (d :: up)) ||
              (resultAt env s (d :: up) && !endsIn k'.bare.callee (ignoreAt env s (d :: up)))) then
          ∃ hk src, k'.marks = [(hk, src)] ∧ hk.kind = .ret ∧
            hk.mode = (methodAt env s (d :: up)).mode
        else k'.marks = []) := by
  have := C02_return_placement hs hb h hu hq
  rwa [if_pos ((reached_iff env s _).2 ⟨hv, hm⟩)] at this

/-- C10.  The same for trailing expressions (C03). -/
theorem C10_same_rule_tail {env : Env} {args : List Meta} {s : Settings} {i i' : Item}
    {uses : List Path} (hs : rootSettings env args = .ok s) (hb : s.bindings.keys.Nodup)
    (h : hooqImpls env args i = .ok (uses, i')) {p : List Nat} {d : Data} {up : List Data}
    (hu : i.chain p = some (d :: up))
    (hv : ∀ e rest, e :: rest <:+ d :: up → e.edge.visit = true)
    (hm : ∀ e m rest, e :: m :: rest <:+ d :: up → m.tag = .mac → macrosAt env s (m :: rest) = true) :
    ∃ n', i'.tree.sub p = some n' ∧
      match d.edge.tail with
      | none => n'.tailMarks = []
      | some tk =>
        if d.mode ≠ .untouched ∧ (!skippedAt (d :: up) && (targetsAt env s (d :: up)).tail &&
            (endsIn n'.bare.callee (tailIdentsAt env s (d :: up)) ||
              (tk == .fnTail && resultAt env s (d :: up) &&
                !endsIn n'.bare.callee (ignoreAt env s (d :: up))))) = true then
          ∃ hk src, n'.tailMarks = [(hk, src)] ∧ hk.kind = .tail ∧
            hk.mode = (methodAt env s (d :: up)).mode
        else n'.tailMarks = [] := by
  have := C03_tail_placement hs hb h hu
  rwa [if_pos ((reached_iff env s _).2 ⟨hv, hm⟩)] at this

/-! ## Witnesses -/

section
open Ex
set_option maxRecDepth 10000

/-- `fn f() -> Result { m! { #![x] fn g() {} } }` -/
def Ex.lossyFile : Item :=
  .fn [] { ident := "f", output := result, text := "fn f () -> Result" }
    [.mac [] (.mk (.ofIdents ["m"]) .brace (.parsed [.file [.path (.ofIdents ["x"])]
      [.fn [] { ident := "g", output := .none, text := "fn g ()" } []] .none])) true]

/-- `#[hooq::method(.a()!)] fn f() -> Result { #[x] y?; }` -/
def Ex.lossyConsume : Item :=
  .fn [.list (hooqPath "method") [tkP '.', tkId "a", tkParen [], tkP '!']]
    { ident := "f", output := result, text := "fn f () -> Result" }
    [.expr (quest [.path (.ofIdents ["x"])] (var "y" 3) 3) true]

/-- The environment of the sample, with the consume-question feature. -/
def Ex.envC : Env := { Ex.env with consume := true }

/-- Both kinds of lost attributes occur: `#![x]` of a file in a macro body and `#[x]` of
a consumed `?` are gone, so the exact form of C04 does not hold for every item. -/
theorem C04_attr_lost :
    (∃ i', hooqImpls env [] Ex.lossyFile = .ok ([], i') ∧
      cleanItem false i' ≠ cleanItem false Ex.lossyFile) ∧
    (∃ i', hooqImpls envC [] Ex.lossyConsume = .ok ([], i') ∧
      cleanItem false i' ≠ cleanItem false Ex.lossyConsume) := by
  refine ⟨⟨_, rfl, fun h => ?_⟩, ⟨_, rfl, fun h => ?_⟩⟩
  · simp [cleanItem, Ex.lossyFile, cleanStmts, cleanStmt, cleanMac, cleanMacBody, cleanEvs, cleanEv] at h
  · simp only [cleanItem, Ex.lossyConsume, cleanStmts, cleanStmt, quest, Item.fn.injEq,
      List.cons.injEq, Stmt.expr.injEq] at h
    have h2 := h.2.2.1.1
    revert h2
    simp [mkHooked, cleanE, cleanK, var, foreign]
    rfl

/-- The sample item meets the hypothesis of `C04_exact_partial`. -/
example : cleanItem false Ex.item = cleanItem true Ex.item ∧ hooqImpls env [] Ex.item = .ok ([], out) :=
  ⟨rfl, out_ok⟩

/-- `w?` in `m!(w?, 1)` meets the hypotheses of `C10_same_rule_question`. -/
example : ∃ d up q, Ex.item.chain [3, 0] = some (d :: up) ∧ d.tag = .question q false ∧
    (up.map Data.tag).head? = some .mac ∧ reached env settings (d :: up) = true :=
  ⟨_, _, _, rfl, rfl, rfl, rfl⟩

/-- A macro body that is walked. -/
example : ∃ b' c', walkMacBody env (Ctx.new settings)
      (.parsed [.expr (quest [] (var "w" 1) 1) .comma, .expr (.mk [] (sp 1 8) (.lit (.int 1))) .none]) {}
        = .ok (b', c') ∧ b'.seps = [.comma, .none] ∧ c'.question = 1 := ⟨_, _, rfl, rfl, rfl⟩

end

end Hooq
