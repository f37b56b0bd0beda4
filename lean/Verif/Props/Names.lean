import Verif.Proof.Names

/-!
# C102: the names that hooks use
-/

namespace Hooq

/-! ## The hooks of an expansion -/

theorem helperPath_names (crate : String) : helperPath crate = tkAbs (helperNames crate) := by
  unfold helperPath helperNames
  split <;> rfl

/-- C102.  Which absolute paths the hooks under a built-in flavor use, exactly, where no attribute
sets the method or the level: those of the libraries that the flavor is for, the helper macro below the
name of the crate that was found, and under `hook` items of a crate `hooq`, whatever was found. -/
theorem C102_names {env : Env} {args : List Meta} {s : Settings} {i i' : Item}
    {uses : List Path} {crate : String} {doc : PresetDoc} (hp : Builtin env args (helperPath crate) doc)
    (hc : crate ∉ otherKeywords) (hs : rootSettings env args = .ok s)
    (h : hooqImpls env args i = .ok (uses, i')) {p : List Nat} {d : Data} {up : List Data}
    (hu : i.chain p = some (d :: up)) (hr : reached env s (d :: up) = true)
    (hm : PlainMethod env (d :: up)) :
    ∃ n', i'.tree.sub p = some n' ∧ ∀ mk ∈ n'.marks, ∀ src q, q ∈ mk.1.names src ↔
      q ∈ foreignNames doc ∨
      (∃ x, calledMacro doc = some x ∧ q = helperNames crate ++ [x]) ∨
      doc.path = ["hook"] ∧ (q = ["hooq", "HooqMeta"] ∨
        (∃ k v, (nearest (bindingOf env k) (targetUp mk.1.kind (d :: up))).or (s.bindings.get? k) = some v) ∧
          (q = ["hooq", "BindingPayload"] ∨ q ∈ payloadNames)) := by
  obtain ⟨n', h1, h2⟩ := preset_toks hp hs h hu hr fun e he a ha => (hm e he a ha).1
  refine ⟨n', h1, fun mk hmk src q => ?_⟩
  obtain ⟨sp, co, rec, -, h4, h5, h6⟩ := h2 mk hmk
  have hn : nearest (bindingOf env "level") (targetUp mk.1.kind (d :: up)) = none := by
    rw [← nearest_eq]
    refine lastSet_none fun a ha => ?_
    obtain ⟨e, he, ha⟩ := mem_attrsOver ha
    refine (hm e ?_ a ha).2
    cases hk : mk.1.kind <;> rw [hk] at he
    · exact List.mem_of_mem_tail he
    · exact List.mem_of_mem_tail he
    · exact he
  generalize hb : (fun k => (nearest (bindingOf env k) (targetUp mk.1.kind (d :: up))).or (s.bindings.get? k)) = b
    at h4 h5 h6
  have hb' : ∀ k, (nearest (bindingOf env k) (targetUp mk.1.kind (d :: up))).or (s.bindings.get? k) = b k :=
    fun k => congrFun hb k
  simp only [hb']
  clear hb hb'
  have e : mk.1.names src = templateNames src ⟨sp.file, sp.line, sp.col⟩ b rec sp
      (Method.parse co (presetTokens (tkAbs (helperNames crate)) doc.path)) := by
    rw [HookData.names, h6, helperPath_names]; rfl
  have hl : ∀ x ∈ helperNames crate, x ∉ otherKeywords := by
    unfold helperNames
    split <;> simp_all [otherKeywords]
  have hne : helperNames crate ≠ [] := by
    unfold helperNames
    split <;> simp
  rw [e]
  have bound : doc.path.head? = some "hook" → (rec.bindings ≠ [] ↔ ∃ k v, b k = some v) := by
    intro hk
    obtain ⟨hl, -⟩ := h4 hk
    constructor
    · intro hne
      obtain ⟨x, hx⟩ := List.exists_mem_of_ne_nil _ hne
      exact ⟨x.1, x.2, (hl.exact _ _).1 hx⟩
    · rintro ⟨k, v, hv⟩ hnil
      have := (hl.exact k v).2 hv
      simp [hnil] at this
  have level : ∀ lev, doc.level = some lev → ∃ v pa, b "level" = some v ∧ v.view = .path pa ∧ pa.IsAbs lev := by
    intro lev hlev
    obtain ⟨v, hv, hv'⟩ := h5 lev hlev
    obtain ⟨pa, h7, h8, -⟩ := hv' hn
    exact ⟨v, pa, hv, h7, h8⟩
  have hrow := hp.row
  clear h5 h4 h6 e h2 hmk hn hm h hp
  have logs : ∀ sub lv, logDoc sub lv = doc → (q ∈ templateNames src ⟨sp.file, sp.line, sp.col⟩ b rec sp
      (Method.parse co (presetTokens (tkAbs (helperNames crate)) doc.path)) ↔ q ∈ foreignNames doc ∨
      (∃ x, calledMacro doc = some x ∧ q = helperNames crate ++ [x]) ∨ doc.path = ["hook"] ∧
        (q = ["hooq", "HooqMeta"] ∨ (∃ k v, b k = some v) ∧ (q = ["hooq", "BindingPayload"] ∨ q ∈ payloadNames))) := by
    rintro sub lv rfl
    obtain ⟨v, pa, g1, g2, g3⟩ := level _ rfl
    have := names_log (src := src) (a := ⟨sp.file, sp.line, sp.col⟩) (m := rec) (sp := sp) (co := co)
      hl hne g1 g2 g3 (by simp)
    simp [presetTokens, logDoc, this, foreignNames, calledMacro, or_comm, or_left_comm]
  have traces : ∀ sub lv, tracingDoc sub lv = doc → (q ∈ templateNames src ⟨sp.file, sp.line, sp.col⟩ b rec sp
      (Method.parse co (presetTokens (tkAbs (helperNames crate)) doc.path)) ↔ q ∈ foreignNames doc ∨
      (∃ x, calledMacro doc = some x ∧ q = helperNames crate ++ [x]) ∨ doc.path = ["hook"] ∧
        (q = ["hooq", "HooqMeta"] ∨ (∃ k v, b k = some v) ∧ (q = ["hooq", "BindingPayload"] ∨ q ∈ payloadNames))) := by
    rintro sub lv rfl
    obtain ⟨v, pa, g1, g2, g3⟩ := level _ rfl
    have := names_tracing (src := src) (a := ⟨sp.file, sp.line, sp.col⟩) (m := rec) (sp := sp) (co := co)
      hl hne g1 g2 g3 (by simp)
    simp [presetTokens, tracingDoc, this, foreignNames, calledMacro, or_comm, or_left_comm]
  simp only [presetDocs, List.mem_cons, List.not_mem_nil, or_false] at hrow
  rcases hrow with h | h | h | h | h | h | h | h | h | h | h | h | h | h | h | h | h | h
  · subst h; simp [presetTokens, names_default hl hne, foreignNames, calledMacro, or_comm]
  · subst h; simp [presetTokens, names_empty, foreignNames, calledMacro]
  · have := bound (by rw [h]; rfl)
    subst h
    simp only [presetTokens, List.head?_cons, Option.some.injEq, String.reduceEq, if_false, if_true, names_hook, this,
      foreignNames, calledMacro]
    simp [or_left_comm]
  · exact logs _ _ h.symm
  · exact logs _ _ h.symm
  · exact logs _ _ h.symm
  · exact logs _ _ h.symm
  · exact logs _ _ h.symm
  · exact logs _ _ h.symm
  · subst h; simp [presetTokens, names_context hl hne, foreignNames, calledMacro]
  · subst h; simp [presetTokens, names_context hl hne, foreignNames, calledMacro]
  · subst h; simp [presetTokens, names_context hl hne, foreignNames, calledMacro]
  · exact traces _ _ h.symm
  · exact traces _ _ h.symm
  · exact traces _ _ h.symm
  · exact traces _ _ h.symm
  · exact traces _ _ h.symm
  · exact traces _ _ h.symm

/-- C102.  The helper macros that the hooks call are there exactly if the project knows `hooq` under a name
other than `hooq_macros`, or `hooq-macros` alone under its own name, or is `hooq` where `hooq` is in scope. -/
theorem C102_helpers {P : Project} {find : String → Option FoundCrate} (hf : P.Found find) {x : String}
    (hx : x = "excerpted_pretty_stringify" ∨ x = "one_line_stringify") :
    P.Has (helperNames (crateName find) ++ [x]) ↔ P.HelpersOk find := by
  have none_of : P.dep "hooq" ≠ some "hooq" → ¬ P.Has ["hooq", "source_excerpt_helpers", x] := by
    rintro hd ⟨pkg, hp, h⟩
    unfold exportsOf at h
    split_ifs at h with c1 c2 c3
    · exact hd (c1 ▸ hp)
    · simp [excerptMacros] at h
    · simp at h
    · exact absurd rfl (hf.only _ _ h).2.2
  have yes : ∀ c, P.dep c = some "hooq" → P.Has [c, "source_excerpt_helpers", x] := by
    intro c hc
    refine ⟨_, hc, ?_⟩
    rcases hx with rfl | rfl <;> simp [exportsOf, excerptMacros]
  unfold Project.HelpersOk
  cases h1 : find "hooq" with
  | none =>
    have hno := hf.absent _ h1
    cases h2 : find "hooq-macros" with
    | none => simpa [crateName, h1, h2, helperNames] using none_of (hno _)
    | some f =>
      cases f with
      | itself => simpa [crateName, h1, h2, helperNames] using none_of (hno _)
      | name n =>
        have hd := hf.named _ _ h2
        simp only [crateName, h1, h2, Option.none_or, helperNames]
        split_ifs with hc
        · simp only [hc, true_and, List.cons_append, List.nil_append, reduceCtorEq, false_and, exists_false, or_false,
            false_or, Option.some.injEq, FoundCrate.name.injEq, exists_eq_left', iff_true]
          refine ⟨_, hc ▸ hd, ?_⟩
          rcases hx with rfl | rfl <;> simp [exportsOf, excerptMacros]
        · simp only [List.cons_append, List.nil_append, reduceCtorEq, false_and, exists_false, or_false,
            false_or, Option.some.injEq, FoundCrate.name.injEq, exists_eq_left', true_and, hc, iff_false]
          rintro ⟨pkg, hp, h⟩
          rw [hd] at hp
          obtain rfl := Option.some.inj hp
          simp [exportsOf, excerptMacros] at h
  | some f =>
    cases f with
    | itself =>
      simp only [crateName, h1, Option.some_or, helperNames, String.reduceEq, if_false, List.cons_append, List.nil_append]
      simp only [Option.some.injEq, reduceCtorEq, false_and, exists_false, true_and, false_or]
      exact ⟨fun h => Classical.byContradiction fun hd => none_of hd h, yes _⟩
    | name n =>
      have hd := hf.named _ _ h1
      simp only [crateName, h1, Option.some_or, helperNames]
      split_ifs with hc
      · simp only [hc, reduceCtorEq, false_and, or_false, Option.some.injEq, FoundCrate.name.injEq, exists_eq_left',
          ne_eq, not_true_eq_false, List.cons_append, List.nil_append, iff_false]
        rintro ⟨pkg, hp, h⟩
        rw [← hc, hd] at hp
        obtain rfl := Option.some.inj hp
        rcases hx with rfl | rfl <;> simp [exportsOf, excerptMacros] at h
      · simp only [reduceCtorEq, false_and, or_false, Option.some.injEq, FoundCrate.name.injEq, exists_eq_left',
          ne_eq, hc, not_false_eq_true, List.cons_append, List.nil_append, iff_true]
        exact yes _ hd

/-- C102.  The record that `$hooq_meta` makes is there exactly if the project knows `hooq` (or
`hooq-helpers`) under the name `hooq`. -/
theorem C102_record {P : Project} {find : String → Option FoundCrate} (hf : P.Found find) {x : String}
    (hx : x = "HooqMeta" ∨ x = "BindingPayload") :
    P.Has ["hooq", x] ↔ P.dep "hooq" = some "hooq" ∨ P.dep "hooq" = some "hooq-helpers" := by
  constructor
  · rintro ⟨pkg, hp, h⟩
    unfold exportsOf at h
    split_ifs at h with c1 c2 c3
    · exact .inl (c1 ▸ hp)
    · rcases hx with rfl | rfl <;> simp [excerptMacros] at h
    · exact .inr (c3 ▸ hp)
    · have := hf.only _ _ h
      rcases hx with rfl | rfl <;> simp at this
  · rintro (h | h) <;> refine ⟨_, h, ?_⟩ <;> rcases hx with rfl | rfl <;> simp [exportsOf]

/-- C102, in the whole.  All absolute paths in a hook stand for something exactly if the libraries that the
flavor is for are there, the helper macros can be named, and, under `hook`, the project knows
`hooq` as `hooq`. -/
theorem C102_resolves {env : Env} {args : List Meta} {s : Settings} {i i' : Item}
    {uses : List Path} {P : Project} {find : String → Option FoundCrate} (hf : P.Found find) {doc : PresetDoc}
    (hp : Builtin env args (helperPath (crateName find)) doc) (hs : rootSettings env args = .ok s)
    (h : hooqImpls env args i = .ok (uses, i')) {p : List Nat} {d : Data} {up : List Data}
    (hu : i.chain p = some (d :: up)) (hr : reached env s (d :: up) = true)
    (hm : PlainMethod env (d :: up)) :
    ∃ n', i'.tree.sub p = some n' ∧ ∀ mk ∈ n'.marks, ∀ src, (∀ q ∈ mk.1.names src, P.Has q) ↔
      (∀ q ∈ foreignNames doc, P.Has q) ∧ (doc.path ≠ ["empty"] → doc.path ≠ ["hook"] → P.HelpersOk find) ∧
      (doc.path = ["hook"] → (P.dep "hooq" = some "hooq" ∨ P.dep "hooq" = some "hooq-helpers") ∧
        ((∃ k v, (nearest (bindingOf env k) (targetUp mk.1.kind (d :: up))).or (s.bindings.get? k) = some v) →
          ∀ q ∈ payloadNames, P.Has q)) := by
  have hc : crateName find ∉ otherKeywords := by
    unfold crateName
    split
    · simp [otherKeywords]
    · next n hn =>
      cases h1 : find "hooq" with
      | none => rw [h1, Option.none_or] at hn; exact hf.word _ _ hn
      | some f => rw [h1, Option.some_or] at hn; exact hf.word _ _ (h1.trans hn)
    · simp [otherKeywords]
  obtain ⟨n', h1, h2⟩ := C102_names hp hc hs h hu hr hm
  refine ⟨n', h1, fun mk hmk src => ?_⟩
  have called : (doc.path = ["empty"] ∨ doc.path = ["hook"]) ∧ calledMacro doc = none ∨
      doc.path ≠ ["empty"] ∧ doc.path ≠ ["hook"] ∧
        ∃ x, calledMacro doc = some x ∧ (x = "excerpted_pretty_stringify" ∨ x = "one_line_stringify") := by
    have hrow := hp.row
    simp only [presetDocs, List.mem_cons, List.not_mem_nil, or_false] at hrow
    rcases hrow with rfl | rfl | rfl | rfl | rfl | rfl | rfl | rfl | rfl | rfl | rfl | rfl | rfl | rfl | rfl | rfl | rfl | rfl
      <;> simp [calledMacro, logDoc, tracingDoc]
  simp only [h2 mk hmk src]
  constructor
  · intro hq
    refine ⟨fun q h => hq q (.inl h), fun k1 k2 => ?_, fun k => ⟨?_, fun hb q h => hq q (.inr (.inr ⟨k, .inr ⟨hb, .inr h⟩⟩))⟩⟩
    · rcases called with ⟨k, -⟩ | ⟨-, -, x, k3, k4⟩
      · exact absurd k (by simp [k1, k2])
      · exact (C102_helpers hf k4).1 (hq _ (.inr (.inl ⟨x, k3, rfl⟩)))
    · exact (C102_record hf (.inl rfl)).1 (hq _ (.inr (.inr ⟨k, .inl rfl⟩)))
  · rintro ⟨k1, k2, k3⟩ q (h | ⟨x, h, rfl⟩ | ⟨h, rfl | ⟨hb, rfl | h'⟩⟩)
    · exact k1 q h
    · rcases called with ⟨-, k⟩ | ⟨k4, k5, y, k6, k7⟩
      · rw [k] at h; cases h
      · obtain rfl : y = x := Option.some.inj (k6.symm.trans h)
        exact (C102_helpers hf k7).2 (k2 k4 k5)
    · exact (C102_record hf (.inl rfl)).2 (k3 h).1
    · exact (C102_record hf (.inr rfl)).2 (k3 h).1
    · exact (k3 h).2 hb q h'

section
open Ex
set_option maxRecDepth 10000

/-- A project that knows `hooq` under the name `my-hooq`. -/
def Ex.renamed : Project where
  dep x := if x = "my_hooq" then some "hooq" else if x = "std" then some "std" else none
  lib pkg r := pkg = "std" ∧ r ∈ [["eprintln"], ["collections", "HashMap", "from"]]

/-- What `crate_name` finds there. -/
def Ex.renamedFind (pkg : String) : Option FoundCrate :=
  if pkg = "hooq" then some (.name "my-hooq") else if pkg = "std" then some (.name "std") else none

theorem Ex.renamed_found : renamed.Found renamedFind where
  word pkg n h := by
    unfold renamedFind at h
    split_ifs at h <;> simp only [Option.some.injEq, FoundCrate.name.injEq] at h <;> subst h <;> decide
  named pkg n h := by
    unfold renamedFind at h
    split_ifs at h <;> simp only [Option.some.injEq, FoundCrate.name.injEq] at h <;> subst_vars <;> decide
  absent pkg h x hx := by
    unfold renamedFind at h
    unfold renamed at hx
    simp only at hx
    split_ifs at h hx with c1 c2 c3 c4
    · exact c1 (Option.some.inj hx).symm
    · exact c2 (Option.some.inj hx).symm
  only pkg r h := by
    obtain ⟨-, h⟩ := h
    simp only [List.mem_cons, List.not_mem_nil, or_false] at h
    rcases h with rfl | rfl <;> simp

/-- The environment of an expansion there. -/
def Ex.renamedEnv : Env :=
  { env with store := .ok (presetFlavors false (helperPath (crateName renamedFind)) ⟨true, true, true, true⟩) }

/-- `#[hooq(hook)]`. -/
def Ex.hookArgs : List Meta := [.path (Path.ofIdents ["hook"])]

theorem Ex.renamed_noDollars : NoDollars (helperPath (crateName renamedFind)) := by
  rw [helperPath_names, helperNames]
  split <;> simp [tkAbs, NoDollars, TT.NoDollar, tkId, tkP]

theorem Ex.renamed_default : ∃ doc ∈ presetDocs, doc.path = ["default"] ∧ doc.level = none ∧
    Builtin renamedEnv [] (helperPath (crateName renamedFind)) doc := by
  refine ⟨_, List.mem_cons_self .., rfl, rfl, List.mem_cons_self .., rfl, renamed_noDollars, ?_⟩
  have h : Reaches (presetFlavors false (helperPath (crateName renamedFind)) ⟨true, true, true, true⟩) ["default"] _ :=
    (inner_iff (uniq_presets _ _ _) _ _).1 rfl
  exact ⟨_, false, ⟨true, true, true, true⟩, _, rfl, uniq_presets _ _ _, h, h⟩

theorem Ex.renamed_hook : ∃ doc ∈ presetDocs, doc.path = ["hook"] ∧ doc.level = none ∧
    Builtin renamedEnv hookArgs (helperPath (crateName renamedFind)) doc := by
  refine ⟨_, List.mem_cons_of_mem _ (List.mem_cons_of_mem _ (List.mem_cons_self ..)), rfl, rfl,
    List.mem_cons_of_mem _ (List.mem_cons_of_mem _ (List.mem_cons_self ..)), rfl, renamed_noDollars, ?_⟩
  have h : Reaches (presetFlavors false (helperPath (crateName renamedFind)) ⟨true, true, true, true⟩) ["hook"] _ :=
    (inner_iff (uniq_presets _ _ _) _ _).1 rfl
  exact ⟨_, false, ⟨true, true, true, true⟩, _, rfl, uniq_presets _ _ _, h, h⟩

theorem Ex.renamed_plain {d : Data} {up : List Data} (h : logged.chain [0, 0, 0] = some (d :: up)) :
    PlainMethod renamedEnv (d :: up) := by
  obtain ⟨rfl, rfl⟩ := List.cons.inj (Option.some.inj h)
  intro d hd a ha
  simp only [List.mem_cons, List.not_mem_nil, or_false] at hd
  rcases hd with rfl | rfl | rfl | rfl <;> simp [Data.seen] at ha

/-- C102.  In a project that knows `hooq` under another name, the hooks under the default flavor name
only what is there, those under `hook` do not. -/
theorem C102_renamed : ∃ i1 i2 n1 n2 m1 m2 u1 u2, renamed.Found renamedFind ∧
    hooqImpls renamedEnv [] logged = .ok (u1, i1) ∧ hooqImpls renamedEnv hookArgs logged = .ok (u2, i2) ∧
    i1.tree.sub [0, 0, 0] = some n1 ∧ n1.marks = [m1] ∧ (∀ src, ∀ q ∈ m1.1.names src, renamed.Has q) ∧
    i2.tree.sub [0, 0, 0] = some n2 ∧ n2.marks = [m2] ∧ ∀ src, ¬ ∀ q ∈ m2.1.names src, renamed.Has q := by
  obtain ⟨doc1, hd1, hp1, hl1, hb1⟩ := renamed_default
  obtain ⟨doc2, hd2, hp2, hl2, hb2⟩ := renamed_hook
  have e1 : ∃ s u i' n' m d up, rootSettings renamedEnv [] = .ok s ∧
      logged.chain [0, 0, 0] = some (d :: up) ∧ reached renamedEnv s (d :: up) = true ∧ hooqImpls renamedEnv [] logged = .ok (u, i') ∧
      i'.tree.sub [0, 0, 0] = some n' ∧ n'.marks = [m] := ⟨_, _, _, _, _, _, _, rfl, rfl, rfl, rfl, rfl, rfl⟩
  have e2 : ∃ s u i' n' m d up, rootSettings renamedEnv hookArgs = .ok s ∧
      logged.chain [0, 0, 0] = some (d :: up) ∧ reached renamedEnv s (d :: up) = true ∧ hooqImpls renamedEnv hookArgs logged = .ok (u, i') ∧
      i'.tree.sub [0, 0, 0] = some n' ∧ n'.marks = [m] := ⟨_, _, _, _, _, _, _, rfl, rfl, rfl, rfl, rfl, rfl⟩
  obtain ⟨s1, u1, i1, n1, m1, d1, up1, a1, c1, c2, a2, a3, a4⟩ := e1
  obtain ⟨s2, u2, i2, n2, m2, d2, up2, b1, c3, c4, b2, b3, b4⟩ := e2
  refine ⟨i1, i2, n1, n2, m1, m2, u1, u2, renamed_found, a2, b2, a3, a4, ?_, b3, b4, ?_⟩
  · obtain ⟨n', g1, g2⟩ := C102_resolves renamed_found hb1 a1 a2 c1 c2 (renamed_plain c1)
    obtain rfl : n1 = n' := Option.some.inj (a3.symm.trans g1)
    intro src
    refine (g2 m1 (by simp [a4]) src).2 ⟨?_, fun _ _ => ?_, fun h => ?_⟩
    · simp only [foreignNames, hp1, hl1, List.head?_cons, Option.toList_none, List.append_nil, List.mem_singleton]
      rintro q rfl
      exact ⟨"std", rfl, by simp [exportsOf, renamed]⟩
    · exact .inl ⟨"my-hooq", rfl, by decide⟩
    · rw [hp1] at h; simp at h
  · obtain ⟨n', g1, g2⟩ := C102_resolves renamed_found hb2 b1 b2 c3 c4 (renamed_plain c3)
    obtain rfl : n2 = n' := Option.some.inj (b3.symm.trans g1)
    intro src h
    have := (((g2 m2 (by simp [b4]) src).1 h).2.2 hp2).1
    simp [renamed] at this

end

end Hooq
