import Verif.Spec.Place
import Verif.Props.Presets

/-!
# C74: where an expansion may stand
-/

namespace Hooq

theorem walkItem_takes {env : Env} {ctx : Ctx} {i o : Item} {c c' : Counter} (pl : Place)
    (member : String → Prop) (h : walkItem env ctx i c = .ok (o, c')) :
    pl.Takes member o ↔ pl.Takes member i := by
  cases i <;> simp only [walkItem] at h
  case macroRules => obtain ⟨rfl, -⟩ := Prod.mk.inj (Except.ok.inj h); rfl
  case other => obtain ⟨rfl, -⟩ := Prod.mk.inj (Except.ok.inj h); rfl
  case mac =>
    obtain ⟨⟨r, c1⟩, -, h⟩ := except_bind_ok h
    obtain ⟨rfl, -⟩ := Prod.mk.inj (Except.ok.inj h)
    rfl
  all_goals
    obtain ⟨⟨r, c1⟩, -, h⟩ := except_bind_ok h
    obtain ⟨⟨b, c2⟩, -, h⟩ := except_bind_ok h
    obtain ⟨rfl, -⟩ := Prod.mk.inj (Except.ok.inj h)
    rfl

/-- C74.  Code comes out exactly when both the item and the arguments can be read and the
expansion succeeds; then it is the result of that expansion. -/
theorem C74_code {P : EntryParsers} {env : Env} {attr item : List TT} {uses : List Path} {o : Item} :
    hooqMacro P env attr item = .code uses o ↔
      ∃ i args, P.item item = some i ∧ P.metas attr = some args ∧
        hooqImpls env args i = .ok (uses, o) := by
  constructor
  · intro h
    simp only [hooqMacro] at h
    split at h
    · cases h
    · rename_i i hi
      split at h
      · cases h
      · rename_i args ha
        split at h
        · rename_i u o' ho
          cases h
          exact ⟨i, args, hi, ha, ho⟩
        · cases h
        · cases h
  · rintro ⟨i, args, hi, ha, ho⟩
    simp only [hooqMacro, hi, ha, ho]

/-- C74.  An item that may stand in a place, be it a module, a function body, an impl or a
trait, is replaced by something that may stand there, unless the place takes no `use` and
the arguments or the selected flavor import a trait.  In that case, and only in that case,
the expansion cannot be compiled whatever the item is. -/
theorem C74_fits {P : EntryParsers} {env : Env} {m : FlavorMap} (hm : env.store = .ok m) (hu : UniqMap m)
    {attr item : List TT} {i : Item} {args : List Meta} (hi : P.item item = some i)
    (ha : P.metas attr = some args) {pl : Place} {member : String → Prop} (ht : pl.Takes member i)
    {uses : List Path} {o : Item} (h : hooqMacro P env attr item = .code uses o) :
    (Outcome.code uses o).FitsAt pl member ↔
      pl.TakesUse ∨ ((∀ a ∈ args, usesGiven env a = []) ∧
        ∀ f, Reaches m (selectedFlavor args) f → f.settings.traitUses = []) := by
  obtain ⟨i', args', hi', ha', ho⟩ := C74_code.1 h
  obtain rfl := Option.some.inj (hi.symm.trans hi')
  obtain rfl := Option.some.inj (ha.symm.trans ha')
  obtain ⟨f, hf, hus⟩ := C41_uses hm hu ho
  have hk : pl.Takes member o := by
    simp only [hooqImpls] at ho
    obtain ⟨s, -, ho⟩ := except_bind_ok ho
    obtain ⟨⟨o', c⟩, hw, ho⟩ := except_bind_ok ho
    simp only [Except.ok.injEq, Prod.mk.injEq] at ho
    obtain ⟨-, rfl⟩ := ho
    exact (walkItem_takes pl member hw).2 ht
  have he : uses = [] ↔ (∀ a ∈ args, usesGiven env a = []) ∧
      ∀ f, Reaches m (selectedFlavor args) f → f.settings.traitUses = [] := by
    rw [hus, List.append_eq_nil_iff, List.flatMap_eq_nil_iff]
    refine and_congr_right fun _ => ⟨fun h g hg => ?_, fun h => h f hf⟩
    rw [hg.functional hu hf, h]
  simp only [Outcome.FitsAt, hk, and_true, ← he]
  by_cases hn : uses = []
  · simp [hn]
  · simp [hn]

/-- C74.  Of the built-in flavors, exactly `anyhow`, `eyre` and `color_eyre` cannot be used on
a method or another member of an impl or trait. -/
theorem C74_builtin {P : EntryParsers} {env : Env} {attr item : List TT} {i : Item} {args : List Meta}
    {helpers : List TT} {doc : PresetDoc} (hp : Builtin env args helpers doc)
    (hg : ∀ a ∈ args, usesGiven env a = []) (hi : P.item item = some i)
    (ha : P.metas attr = some args) {pl : Place} {member : String → Prop} (ht : pl.Takes member i)
    (hl : pl = .implBody ∨ pl = .traitBody)
    {uses : List Path} {o : Item} (h : hooqMacro P env attr item = .code uses o) :
    (Outcome.code uses o).FitsAt pl member ↔
      selectedFlavor args ∉ [["anyhow"], ["eyre"], ["color_eyre"]] := by
  obtain ⟨hr, hq, hd, m, consume, ft, f, hm, hu, hf, hf'⟩ := hp
  rw [C74_fits hm hu hi ha ht h]
  have hdoc := C58_settings hd hf hr hq
  have hx : (∀ g, Reaches m (selectedFlavor args) g → g.settings.traitUses = []) ↔
      f.settings.traitUses = [] :=
    ⟨fun k => k f hf', fun k g hg => by rw [hg.functional hu hf', k]⟩
  have hnu : ¬ pl.TakesUse := by rcases hl with rfl | rfl <;> exact id
  have hy : f.settings.traitUses = [] ↔ doc.uses = [] := by
    have := hdoc.traitUses.length_eq
    rw [← List.length_eq_zero_iff, ← List.length_eq_zero_iff, this]
  rw [hx, hy, ← hq]
  simp only [hnu, false_or, and_iff_right hg]
  have : ∀ d ∈ presetDocs, (d.uses = [] ↔ d.path ∉ [["anyhow"], ["eyre"], ["color_eyre"]]) := by
    simp [presetDocs, logDoc, tracingDoc]
  exact this doc hr

/-- C74.  The imports depend on the arguments alone.  A flavor chosen by an attribute inside
of the item (`#[hooq::flavor = anyhow]`) imports nothing, though its method may need it. -/
theorem C74_uses_fixed {P : EntryParsers} {env : Env} {attr item item' : List TT} {uses uses' : List Path}
    {o o' : Item} (h : hooqMacro P env attr item = .code uses o)
    (h' : hooqMacro P env attr item' = .code uses' o') : uses = uses' := by
  obtain ⟨i, args, -, ha, ho⟩ := C74_code.1 h
  obtain ⟨i', args', -, ha', ho'⟩ := C74_code.1 h'
  obtain rfl := Option.some.inj (ha.symm.trans ha')
  simp only [hooqImpls] at ho ho'
  obtain ⟨s, hs, ho⟩ := except_bind_ok ho
  obtain ⟨s', hs', ho'⟩ := except_bind_ok ho'
  obtain rfl := Except.ok.inj (hs.symm.trans hs')
  obtain ⟨_, -, ho⟩ := except_bind_ok ho
  obtain ⟨_, -, ho'⟩ := except_bind_ok ho'
  simp only [Except.ok.injEq, Prod.mk.injEq] at ho ho'
  rw [← ho.1, ← ho'.1]

/-- C74.  An error leaves nothing of the item: what the compiler gets is one error message or
a panic, never a part of the code; and an item that cannot be read is reported whatever the
arguments and the configuration are. -/
theorem C74_failure {P : EntryParsers} {env : Env} {attr item : List TT} :
    (∀ i args e, P.item item = some i → P.metas attr = some args → hooqImpls env args i = .error e →
      hooqMacro P env attr item = if e = .panic then .panicked else .compileError (.expansion e)) ∧
    (∀ i, P.item item = some i → P.metas attr = none →
      ∀ env', hooqMacro P env' attr item = .compileError .argSyntax) ∧
    (P.item item = none → ∀ env' attr', hooqMacro P env' attr' item = .compileError .itemSyntax) := by
  refine ⟨fun i args e hi ha he => ?_, fun i hi ha env' => ?_, fun hi env' attr' => ?_⟩
  · simp only [hooqMacro, hi, ha, he]
    cases e <;> simp
  · simp only [hooqMacro, hi, ha]
  · simp only [hooqMacro, hi]

namespace Ex

/-- `fn read(&self) -> Result { x? }`, a method. -/
def readMethod : Item :=
  .fn [] { ident := "read", output := result, text := "fn read (& self) -> Result" }
    [.expr (quest [] (var "x" 2) 2) false]

/-- Parsers that know the method, and the names of flavors. -/
def entryParsers : EntryParsers where
  item := fun ts => match ts with
    | [.ident "read" _] => some readMethod
    | _ => none
  metas := fun ts => match ts with
    | [.ident s _] => some [.path (.ofIdents [s])]
    | _ => none

theorem builtin_named {s : String} {doc : PresetDoc} (hd : doc ∈ presetDocs) (hp : doc.path = [s])
    (hs : selectedFlavor [.path (.ofIdents [s])] = [s]) {f : Flavor}
    (hf : Reaches (presetFlavors false [tkId "helpers"] ⟨true, true, true, true⟩) [s] f) :
    Builtin env [.path (.ofIdents [s])] [tkId "helpers"] doc := by
  refine ⟨hd, by rw [hp, hs], by simp [NoDollars, TT.NoDollar, tkId], _, false, ⟨true, true, true, true⟩, f, rfl,
    uniq_presets _ _ _, ?_, ?_⟩
  · rw [hs]; exact hf
  · rw [hs]; exact hf

end Ex

section
open Ex
set_option maxRecDepth 10000

-- `#[hooq(anyhow)]` on a method: the expansion succeeds, and its `use` cannot stand in an impl.
example : ∃ uses o, hooqMacro entryParsers env [tkId "anyhow"] [tkId "read"] = .code uses o ∧
    Place.implBody.Takes (fun _ => False) readMethod ∧
    ¬ (Outcome.code uses o).FitsAt .implBody (fun _ => False) := by
  refine ⟨_, _, rfl, .inr (.inr trivial), ?_⟩
  rw [C74_builtin (P := entryParsers) (env := env) (attr := [tkId "anyhow"]) (item := [tkId "read"]) (doc := ⟨["anyhow"], (·.anyhow), [["anyhow", "Context"]], none, contextText "with_context"⟩)
    (builtin_named (by simp [presetDocs]) rfl rfl ((inner_iff (uniq_presets _ _ _) _ _).1 rfl))
    (by simp [usesGiven]) rfl rfl (.inr (.inr trivial)) (.inl rfl) rfl]
  decide

-- `#[hooq(hook)]` on the same method is fine.
example : ∃ uses o, hooqMacro entryParsers env [tkId "hook"] [tkId "read"] = .code uses o ∧
    (Outcome.code uses o).FitsAt .implBody (fun _ => False) := by
  refine ⟨_, _, rfl, ?_⟩
  rw [C74_fits (P := entryParsers) (env := env) (attr := [tkId "hook"]) (item := [tkId "read"]) (m := presetFlavors false [tkId "helpers"] ⟨true, true, true, true⟩) rfl
    (uniq_presets _ _ _) rfl rfl (.inr (.inr trivial)) rfl]
  refine .inr ⟨by simp [usesGiven], fun f hf => ?_⟩
  have := (inner_iff (uniq_presets _ _ _) _ _).2 hf
  obtain rfl := Option.some.inj this
  rfl

-- An unknown flavor: the method is gone.
example : hooqMacro entryParsers env [tkId "nope"] [tkId "read"] =
    .compileError (.expansion (.flavorNotFound ["nope"] (allFlavorNames
      (presetFlavors false [tkId "helpers"] ⟨true, true, true, true⟩)))) := rfl

end

end Hooq
