import Verif.Props.Errors
import Verif.Props.Toml

/-!
# The empty flavor (C14)
-/

namespace Hooq

/-- `#[hooq(empty)]` selects the preset `empty`, whatever file was loaded. -/
theorem C14_root {env : Env} {tenv : TomlEnv} {dflt : Settings} {consume : Bool} {helpers : List TT}
    {ft : PresetFeatures} {m' : FlavorMap} {toml : AMap Table} (hu : UniqToml toml)
    (ht : applyToml tenv dflt (presetFlavors consume helpers ft) toml = .ok m')
    (hst : env.store = .ok m') :
    rootSettings env [.path (Path.ofIdents ["empty"])] = .ok (emptySettings consume) := by
  have h := C37_preset hu ht
  have h1 : parseRoot env {} [.path (Path.ofIdents ["empty"])]
      = .ok { flavor := some ["empty"] } := rfl
  simp only [rootSettings, h1, bind, Except.bind, rootLoad, lookupFlavor, hst]
  have h2 : (flavorPathOfString "default").mapError Err.flavorPath = .ok ["default"] := rfl
  simp only [h2, Option.getD_some, h]
  rfl

/-- No attribute of the item sets the hook targets, by themselves or through a
flavor. -/
def NoTargetAttr (env : Env) (i : Item) : Prop :=
  ∀ p n, i.tree.sub p = some n → ∀ a ∈ n.data.attrs, targetsOf env a = none

theorem chain_mem {t : RTree} {acc up : List Data} {p : List Nat} (h : t.upFrom acc p = some up) {d : Data}
    (hd : d ∈ up) : d ∈ acc ∨ ∃ q n, t.sub q = some n ∧ n.data = d := by
  induction p generalizing t acc with
  | nil =>
    obtain ⟨d0, ms, ks⟩ := t
    simp only [RTree.upFrom, Option.some.injEq] at h
    subst h
    rcases List.mem_cons.1 hd with rfl | h
    · exact .inr ⟨[], _, rfl, rfl⟩
    · exact .inl h
  | cons i p ih =>
    obtain ⟨d0, ms, ks⟩ := t
    simp only [RTree.upFrom] at h
    split at h
    · rename_i k hk
      rcases ih h with h1 | ⟨q, n, h1, h2⟩
      · rcases List.mem_cons.1 h1 with rfl | h
        · exact .inr ⟨[], _, rfl, rfl⟩
        · exact .inl h
      · exact .inr ⟨i :: q, n, by simp [RTree.sub, hk, h1], h2⟩
    · simp at h

theorem chain_parent {i : Item} {p : List Nat} {d d2 : Data} {up : List Data}
    (hu : i.chain p = some (d :: d2 :: up)) : ∃ q, i.chain q = some (d2 :: up) := by
  rcases List.eq_nil_or_concat p with rfl | ⟨q, j, rfl⟩
  · unfold Item.chain at hu
    cases h0 : i.tree with
    | mk d0 ms ks => simp [h0, RTree.upFrom] at hu
  · rw [List.concat_eq_append] at hu
    exact ⟨q, upFrom_snoc hu⟩

theorem targets_off {env : Env} {s : Settings} {i : Item} (hi : NoTargetAttr env i)
    (hs : s.targets = ⟨false, false, false⟩) {p : List Nat} {up : List Data}
    (hu : i.chain p = some up) (k : Kind) : hookedAt env s up k = false := by
  have : lastSet (targetsOf env) (attrsOver up) = none := by
    apply lastSet_eq_none
    intro a ha
    simp only [attrsOver, List.mem_flatMap, List.mem_reverse] at ha
    obtain ⟨d, h1, h2⟩ := ha
    rcases chain_mem hu h1 with h | ⟨q, n, h3, rfl⟩
    · simp at h
    · exact hi q n h3 a (seen_sub h2)
  simp only [hookedAt, targetsAt, this, Option.getD_none, hs]
  cases k <;> simp [Targets.has]

/-- C14.  With `#[hooq(empty)]` and no attribute that sets the hook targets, every node
of the output is the node of the input without its inert attributes: nothing is hooked,
no `?` is consumed, no trait is imported.  What the macro does not reach is literally
the same. -/
theorem C14_unchanged_partial {env : Env} {tenv : TomlEnv} {dflt : Settings} {consume : Bool}
    {helpers : List TT} {ft : PresetFeatures} {m' : FlavorMap} {toml : AMap Table} (hut : UniqToml toml)
    (ht : applyToml tenv dflt (presetFlavors consume helpers ft) toml = .ok m')
    (hst : env.store = .ok m') {i i' : Item} {uses : List Path} (hi : NoTargetAttr env i)
    (h : hooqImpls env [.path (Path.ofIdents ["empty"])] i = .ok (uses, i')) :
    uses = [] ∧ cleanItem true i' = cleanItem true i ∧
    ∀ p d up, i.chain p = some (d :: up) →
      if reached env (emptySettings consume) (d :: up) then
        ∃ n n', i.tree.sub p = some n ∧ i'.tree.sub p = some n' ∧ n'.data = { d with attrs := d.kept } ∧
          n'.marks = [] ∧ n'.kids.length = n.kids.length
      else i'.tree.sub p = i.tree.sub p := by
  have hs := C14_root (env := env) hut ht hst
  have hb : (emptySettings consume).bindings.keys.Nodup := by simp [emptySettings, AMap.keys]
  refine ⟨?_, C04_code_kept h, fun p d up hu => ?_⟩
  · simp only [hooqImpls, hs] at h
    obtain ⟨_, h0, h⟩ := except_bind_ok h
    obtain rfl := Except.ok.inj h0
    obtain ⟨⟨i2, c'⟩, h1, h2⟩ := except_bind_ok h
    simp only [Except.ok.injEq, Prod.mk.injEq] at h2
    exact h2.1.symm
  · have off := fun {p up} (hu : i.chain p = some up) k => targets_off (s := emptySettings consume) hi rfl hu k
    split
    · rename_i hr
      obtain ⟨c', hw⟩ := expansion hs h
      obtain ⟨n, n', h1, h2, h3, h4, h5, -⟩ := node_at hb (agrees_new env _) hw hu hr
      obtain ⟨n2, h6, -, h7⟩ := marks_at (wfItem {} i) hb (agrees_new env _) hw hu hr
      rw [h2] at h6
      obtain rfl := Option.some.inj h6
      refine ⟨n, n', h1, h2, ?_, ?_, h4⟩
      · rw [h5]
        cases d.tag <;> simp [off hu]
      · rw [List.eq_nil_iff_forall_not_mem]
        intro m hm
        have hf := h7 m hm
        simp only [HookFact] at hf
        split at hf
        · exact absurd hf.2.1 (by simp [off hu])
        · rename_i d2 rest hk heq
          rw [hk] at hu
          obtain ⟨_, hup⟩ := chain_parent hu
          obtain ⟨q, b, c, -, h8, -⟩ := hf
          exact absurd h8 (by simp [off hup])
        · rename_i d2 rest hk heq
          rw [hk] at hu
          obtain ⟨_, hup⟩ := chain_parent hu
          obtain ⟨c, -, h8, -⟩ := hf
          exact absurd h8 (by simp [off hup])
        · exact hf
    · rename_i hr
      exact unreached_unchanged hs h hu (by simpa using hr)

/-- C14.  Under the same conditions the expansion can only fail because of a malformed
attribute, never because of a template. -/
theorem C14_only_attribute_errors {env : Env} {tenv : TomlEnv} {dflt : Settings} {consume : Bool}
    {helpers : List TT} {ft : PresetFeatures} {m' : FlavorMap} {toml : AMap Table} (hut : UniqToml toml)
    (ht : applyToml tenv dflt (presetFlavors consume helpers ft) toml = .ok m')
    (hst : env.store = .ok m') {i : Item} (hsrc : i.IsSource) (hi : NoTargetAttr env i) {e : Err}
    (h : hooqImpls env [.path (Path.ofIdents ["empty"])] i = .error e) :
    ∃ p n up, i.tree.sub p = some n ∧ i.chain p = some (n.data :: up) ∧
      reached env (emptySettings consume) (n.data :: up) = true ∧ ∃ a ∈ n.data.seen, ¬ AttrOk env a := by
  have hs := C14_root (env := env) hut ht hst
  rcases C18_failure_cause hsrc h with h1 | ⟨s, h1, h2⟩
  · rw [hs] at h1; cases h1
  · rw [hs] at h1
    obtain rfl := Except.ok.inj h1
    obtain ⟨p, n, up, h3, h4, h5, h6⟩ := h2 (by simp [emptySettings, AMap.keys])
    have off := targets_off (s := emptySettings consume) hi rfl h4
    refine ⟨p, n, up, h3, h4, h5, ?_⟩
    cases h6 with
    | attr a h1 h2 => exact ⟨a, h1, h2⟩
    | question q cnt k k' ctx c c' _ _ _ h7 _ => exact absurd h7 (by simp [off])
    | ret cnt k k' ctx c c' _ _ _ _ h7 _ => exact absurd h7 (by simp [off])
    | tail tk cnt t1 _ _ _ _ h7 _ => exact absurd h7 (by simp [off])

section
open Ex
set_option maxRecDepth 10000

/-- `fn f() -> Result { #[hooq::method(.a($nope))] #[x] y?; #[hooq::skip] Err(z?) }` -/
def Ex.quiet : Item :=
  .fn [] { ident := "f", output := result, text := "fn f () -> Result" }
    [.expr (quest [.list (hooqPath "method") [tkP '.', tkId "a", tkParen (tkVar "nope")],
        .path (.ofIdents ["x"])] (var "y" 2) 2) true,
     .expr (.mk [.path (hooqPath "skip")] (sp 3 1) (.call (var "Err" 3) [quest [] (var "z" 3) 3])) false]

/-- The hypotheses of C14 can be met, with an unusable method on a target. -/
example : env.store = .ok (presetFlavors false [tkId "helpers"] ⟨true, true, true, true⟩) ∧
    NoTargetAttr env Ex.quiet ∧ Ex.quiet.IsSource ∧
    ∃ i', hooqImpls env [.path (Path.ofIdents ["empty"])] Ex.quiet = .ok ([], i') := by
  refine ⟨rfl, fun p n hs a ha => ?_, fun p n hs => ?_, _, rfl⟩
  · have := allNodes_sub (t := Ex.quiet.tree)
      (f := fun n => n.data.attrs.all fun a => (targetsOf env a).isNone) rfl hs
    simp only [List.all_eq_true, Option.isNone_iff_eq_none] at this
    exact this a ha
  · have := allNodes_sub (t := Ex.quiet.tree) (f := fun n => !n.built) rfl hs
    simpa using this

end

end Hooq
