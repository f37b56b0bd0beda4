import Verif.Model.Message
import Verif.Props.Args
import Verif.Props.Attr
import Verif.Props.Messages
import Verif.Spec.Help

/-!
# The help text for inert attributes (C77)
-/

namespace Hooq

theorem stringsOf_text (ts : List TT) (l : List String) : stringsOf ts = some l ↔ PlainStrings l ts := by
  constructor
  · induction ts using stringsOf.induct generalizing l with
    | case1 => simp only [stringsOf, Option.some.injEq]; rintro rfl; exact .nil
    | case2 s sp => simp only [stringsOf, Option.some.injEq]; rintro rfl; exact .one s sp
    | case3 s sp sp' rest ih =>
      simp only [stringsOf, Option.map_eq_some_iff]
      rintro ⟨l', h, rfl⟩
      exact .cons s sp sp' (ih l' h)
    | case4 ts h1 h2 h3 => rw [stringsOf] <;> simp_all
  · intro h
    induction h with
    | nil => rfl
    | one => rfl
    | cons s sp sp' h ih => simp [stringsOf, ih]

theorem parseStrings_text (ts : List TT) (l : List String) : parseStrings ts = some l ↔ StringsText l ts := by
  simp only [parseStrings_iff, StringsText, stringsOf_text]

theorem plain_text {l : List String} {ts : List TT} (h : PlainStrings l ts) : StringsText l ts := by
  refine ⟨ts, ?_, h⟩
  induction h with
  | nil => exact .nil
  | one => exact .token (by simp) .nil
  | cons _ _ _ _ ih => exact .token (by simp) (.token (by simp) ih)

theorem inertHelp_oneLine : ∀ s ∈ inertHelpLines, OneLine s := by
  simp only [inertHelpLines, OneLine]; decide +kernel

/-- The lines of the help text. -/
theorem inertHelp_lines (l : String) : HasLine inertHelpMessage l ↔ l ∈ inertHelpLines := by
  rw [inertHelpMessage, hasLine_join inertHelp_oneLine (by simp [inertHelpLines])]

theorem isInert_hooqPath {a : Attr} {x : String} (h : a.getPath = hooqPath x) : a.isInert = true := by
  simp [Meta.isInert, h, hooqPath, Path.ofIdents]

/-- C77, text.  The formats are lines of the text, and every other line is prose. -/
theorem C77_lines (env : Env) (hn : ∃ ts v x, env.parseNameValue ts = some (Path.ofIdents [x], v))
    (hf : ∃ v f, flavorOf env v = some f) (line : String) :
    HasLine inertHelpMessage line ↔ (∃ a, WrittenAs env line a) ∨
      line ∈ ["expected attribute formats are below:", "", "or like #[hooq::SETTING = FLAVOR_NAME] format where",
        "- SETTING is one of:", "- FLAVOR_NAME is a flavor name as path or string",
        "This format overrides the corresponding setting with the one defined in the specified flavor.\""] := by
  obtain ⟨ts, v, x, hn⟩ := hn
  obtain ⟨w, f, hf⟩ := hf
  rw [inertHelp_lines]
  constructor
  · intro h
    have set : ∀ l y, (l, y) ∈ _ → ∃ a, WrittenAs env l a := fun _ _ h => ⟨_, .setting h hf⟩
    simp only [inertHelpLines, List.mem_cons, List.not_mem_nil, or_false] at h
    rcases h with rfl | rfl | rfl | rfl | rfl | rfl | rfl | rfl | rfl | rfl | rfl | rfl | rfl | rfl | rfl | rfl | rfl |
      rfl | rfl | rfl | rfl | rfl | rfl | rfl | rfl
    all_goals first
      | exact .inl ⟨_, .method []⟩
      | exact .inl ⟨_, .hookTargets (l := []) (by simp) ⟨[], .nil, .nil⟩⟩
      | exact .inl ⟨_, .tailIdents "Err" .callSite⟩
      | exact .inl ⟨_, .ignoreIdents "Ok" .callSite⟩
      | exact .inl ⟨_, .resultTypes "XxxResult" .callSite⟩
      | exact .inl ⟨_, .hookInMacros (.inl rfl) ⟨.callSite, .token (by simp) .nil⟩⟩
      | exact .inl ⟨_, .binding hn⟩
      | exact .inl ⟨_, .alternative (x := "xxx") v (by simp [settingNames])⟩
      | exact .inl ⟨_, .skip⟩
      | exact .inl ⟨_, .skipAll⟩
      | (refine .inl (set _ "flavor" ?_); simp; done)
      | (refine .inl (set _ "method" ?_); simp; done)
      | (refine .inl (set _ "hook_targets" ?_); simp; done)
      | (refine .inl (set _ "tail_expr_idents" ?_); simp; done)
      | (refine .inl (set _ "result_types" ?_); simp; done)
      | (refine .inl (set _ "hook_in_macros" ?_); simp; done)
      | (refine .inl (set _ "bindings" ?_); simp; done)
      | (right; simp; done)
  · rintro (⟨a, h⟩ | h)
    · cases h with
      | setting h _ =>
        simp only [List.mem_cons, List.not_mem_nil, or_false, Prod.mk.injEq] at h
        rcases h with ⟨rfl, -⟩ | ⟨rfl, -⟩ | ⟨rfl, -⟩ | ⟨rfl, -⟩ | ⟨rfl, -⟩ | ⟨rfl, -⟩ | ⟨rfl, -⟩ <;> simp [inertHelpLines]
      | _ => simp [inertHelpLines]
    · simp only [List.mem_cons, List.not_mem_nil, or_false] at h
      rcases h with rfl | rfl | rfl | rfl | rfl | rfl <;> simp [inertHelpLines]

/-- C77.  What is written as a line of the text says is accepted and removed, except for the
three lines that show identifiers without quotes.  Missing for the full statement: those
three (see `C77_unquoted`). -/
theorem C77_offered_partial {env : Env} {line : String} {a : Attr} (h : WrittenAs env line a)
    (hl : line ∉ unquotedLines) (c : Ctx) : ∃ h, handleAttrs env [a] c = .ok h ∧ h.attrs = [] := by
  have hok : AttrOk env a := by
    cases h with
    | method ts => exact .inr (.inl rfl)
    | hookTargets h1 h2 => exact .inr (.inr (.inl ⟨rfl, _, (parseStrings_text _ _).2 h2, h1⟩))
    | tailIdents => simp [unquotedLines] at hl
    | ignoreIdents => simp [unquotedLines] at hl
    | resultTypes => simp [unquotedLines] at hl
    | hookInMacros h hw =>
      refine .inr (.inr (.inr (.inr (.inl ⟨rfl, ?_⟩))))
      rcases h with rfl | rfl
      · exact ⟨true, (C55_bool _ true).2 hw⟩
      · exact ⟨false, (C55_bool _ false).2 hw⟩
    | binding h => exact .inr (.inr (.inr (.inr (.inr ⟨by simp, _, _, h⟩))))
    | alternative v h =>
      refine .inr (.inr ⟨⟨_, _, rfl, rfl⟩, ?_⟩)
      simp only [List.mem_map, hooqPath_inj, exists_eq_right]
      exact h
    | skip => exact .inr (by simp)
    | skipAll => exact .inr (by simp)
    | setting h1 h2 =>
      refine .inr (.inl ⟨?_, _, h2⟩)
      simp only [List.mem_cons, List.not_mem_nil, or_false, Prod.mk.injEq] at h1
      rcases h1 with ⟨-, rfl⟩ | ⟨-, rfl⟩ | ⟨-, rfl⟩ | ⟨-, rfl⟩ | ⟨-, rfl⟩ | ⟨-, rfl⟩ | ⟨-, rfl⟩ <;> simp
  obtain ⟨r, hr⟩ := (C31_accepted_iff env [a] c).2 (by simpa using hok)
  have hi : a.isInert = true := by
    cases h <;> exact isInert_hooqPath rfl
  refine ⟨r, hr, ?_⟩
  obtain ⟨i, kept, he, -, hk, -⟩ := handleAttrs_ok hr
  rw [hk]
  simp [(C30_last_wins he).2.2.2.2.2.2, hi]

/-- C77, the exception.  Written as those three lines show, an attribute is an error,
whatever the identifier. -/
theorem C77_unquoted {env : Env} {line : String} {a : Attr} (h : WrittenAs env line a)
    (hl : line ∈ unquotedLines) (c : Ctx) : handleAttrs env [a] c = .error .stringsParse := by
  have hn : ∀ (x : String) sp, parseStrings [.ident x sp] = none := fun _ _ => rfl
  cases h <;> first
    | (simp [unquotedLines] at hl; done)
    | (rename_i h1; simp only [List.mem_cons, List.not_mem_nil, or_false, Prod.mk.injEq] at h1
       rcases h1 with ⟨rfl, -⟩ | ⟨rfl, -⟩ | ⟨rfl, -⟩ | ⟨rfl, -⟩ | ⟨rfl, -⟩ | ⟨rfl, -⟩ | ⟨rfl, -⟩ <;>
         simp [unquotedLines] at hl
       done)
    | (simp [handleAttrs, extract, extractFrom, inertStep, hooqPath_inj, hn, bind, Except.bind]; done)

/-- C77, the converse.  An inert attribute that is accepted is written as one of the other
lines says, or in a form that the text does not show. -/
theorem C77_accepted {env : Env} {a : Attr} {c : Ctx} {h : Handled} (ha : a.isInert = true)
    (hh : handleAttrs env [a] c = .ok h) :
    (∃ line, line ∉ unquotedLines ∧ WrittenAs env line a) ∨ NotShown env a := by
  have hok : AttrOk env a := by simpa using (C31_accepted_iff env [a] c).1 ⟨h, hh⟩
  rcases hok with hok | hok
  · rw [ha] at hok; simp at hok
  cases a with
  | path p =>
    simp only [List.map_cons, List.map_nil, List.mem_cons, List.not_mem_nil, or_false] at hok
    rcases hok with rfl | rfl
    · exact .inl ⟨_, by simp [unquotedLines], .skip⟩
    · exact .inl ⟨_, by simp [unquotedLines], .skipAll⟩
  | list p ts =>
    rcases hok with rfl | ⟨rfl, l, h1, h2⟩ | ⟨h1, l, h2⟩ | ⟨rfl, b, h1⟩ | ⟨h1, x, v, h2⟩
    · exact .inl ⟨_, by simp [unquotedLines], .method ts⟩
    · exact .inl ⟨_, by simp [unquotedLines], .hookTargets h2 ((parseStrings_text _ _).1 h1)⟩
    · obtain ⟨n, hn, rfl⟩ := List.mem_map.1 h1
      exact .inr (.strings hn ((parseStrings_text _ _).1 h2))
    · refine .inl ⟨_, ?_, .hookInMacros ?_ ((C55_bool ts b).1 h1)⟩
      · simp [unquotedLines]
      · cases b <;> simp
    · simp only [List.map_cons, List.map_nil, List.mem_cons, List.not_mem_nil, or_false] at h1
      rcases h1 with rfl | rfl
      · exact .inl ⟨_, by simp [unquotedLines], .binding h2⟩
      · exact .inr (.var h2)
  | nv p v =>
    rcases hok with ⟨h1, f, h2⟩ | ⟨h1, h2⟩
    · obtain ⟨n, hn, rfl⟩ := List.mem_map.1 h1
      have : ∃ line, line ∉ unquotedLines ∧ (line, n) ∈ [("  - flavor", "flavor"), ("  - method", "method"),
          ("  - hook_targets", "hook_targets"),
          ("  - tail_expr_idents // ignore_tail_expr_idents is included here", "tail_expr_idents"),
          ("  - result_types", "result_types"), ("  - hook_in_macros", "hook_in_macros"),
          ("  - bindings", "bindings")] := by
        simp only [List.mem_cons, List.not_mem_nil, or_false] at hn
        rcases hn with rfl | rfl | rfl | rfl | rfl | rfl | rfl <;> refine ⟨_, ?_, by simp; rfl⟩ <;> simp [unquotedLines]
      obtain ⟨line, hl, hm⟩ := this
      exact .inl ⟨line, hl, .setting hm h2⟩
    · by_cases hx : ∃ x, p = hooqPath x
      · obtain ⟨x, rfl⟩ := hx
        refine .inl ⟨_, by simp [unquotedLines], .alternative v fun h => h2 (List.mem_map.2 ⟨x, h, rfl⟩)⟩
      · exact .inr (.odd v h1 fun x h => hx ⟨x, h⟩)

/-! ## Examples -/

open Ex

/-- A parser that reads a name, `=` and a value. -/
def Ex.namedEnv : Env := { env with
  parseNameValue := fun ts => match ts with
    | [.ident x _, .punct '=' _, .lit (.int n) _] => some (Path.ofIdents [x], { view := .other, text := toString n })
    | _ => none }

/-- `#[hooq::hook_targets("return", "?")]`. -/
def Ex.offeredTargets : Attr :=
  .list (hooqPath "hook_targets") [tkStr "return", tkP ',', tkStr "?"]

example : WrittenAs namedEnv "- #[hooq::hook_targets(/* e.g. `\"return\", \"?\"` */)]" offeredTargets ∧
    ∃ h, handleAttrs namedEnv [offeredTargets] default = .ok h ∧ h.attrs = [] := by
  have h : WrittenAs namedEnv "- #[hooq::hook_targets(/* e.g. `\"return\", \"?\"` */)]" offeredTargets := by
    refine .hookTargets (l := ["return", "?"]) ?_ (plain_text (.cons _ _ _ (.one _ _)))
    simp [KnownTarget, targetNames]
  exact ⟨h, C77_offered_partial h (by simp [unquotedLines]) default⟩

/-- `#[hooq::tail_expr_idents(Err)]`, as the text shows, is an error; with quotes it is not. -/
example : handleAttrs namedEnv [.list (hooqPath "tail_expr_idents") [tkId "Err"]] default = .error .stringsParse ∧
    ∃ h, handleAttrs namedEnv [.list (hooqPath "tail_expr_idents") [tkStr "Err"]] default = .ok h :=
  ⟨C77_unquoted (.tailIdents "Err" .callSite) (by simp [unquotedLines]) default, _, rfl⟩

/-- `#[hooq::var(x = 42)]` is accepted and not shown; the premises of `C77_lines` can be met. -/
example : NotShown namedEnv (.list (hooqPath "var") [tkId "x", tkP '=', .lit (.int 42) .callSite]) ∧
    (∃ h, handleAttrs namedEnv [.list (hooqPath "var") [tkId "x", tkP '=', .lit (.int 42) .callSite]] default = .ok h) ∧
    (∃ ts v x, namedEnv.parseNameValue ts = some (Path.ofIdents [x], v)) ∧ ∃ v f, flavorOf namedEnv v = some f := by
  have h : namedEnv.parseNameValue [tkId "x", tkP '=', .lit (.int 42) .callSite] =
      some (Path.ofIdents ["x"], { view := .other, text := toString 42 }) := rfl
  exact ⟨.var h, ⟨_, rfl⟩, ⟨_, _, _, h⟩, { view := .litStr "default", text := "" }, _, rfl⟩

/-- `#[hooq::skip = 1]` is accepted: it binds the name `skip`. -/
example (v : Value) : WrittenAs namedEnv "- #[hooq::xxx = /* e.g. `42` */] // alternative syntax for binding"
    (.nv (hooqPath "skip") v) := .alternative v (by simp [settingNames])

end Hooq
