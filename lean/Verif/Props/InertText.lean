import Verif.Props.Help
import Verif.Props.Metas
import Verif.Proof.Foreign
import Verif.Spec.InertText

/-!
# How an inert attribute may be written (C79)
-/

namespace Hooq

theorem plainWord_iff {x : String} : isModSegment x = true ↔ PlainWord x := by
  by_cases hx : x = ""
  · subst hx
    have h : "" ∉ otherKeywords := by decide +kernel
    have h' : isModSegment "" = true := by decide +kernel
    simp [PlainWord, h, h']
  · have := isModSegment_iff (x := x)
    simp only [PathWord, hx, ne_eq, not_false_eq_true, true_and] at this
    exact this

theorem modLoop_ne {n : Nat} {ts : List TT} {l : List String} {r : List TT} (h : modLoop n ts = some (l, r)) :
    l ≠ [] := by
  cases n with
  | zero => cases h
  | succ n =>
    rw [modLoop] at h
    split at h
    · split at h
      · split at h
        · obtain ⟨p, -, h2⟩ := Option.map_eq_some_iff.1 h
          simp only [Prod.mk.injEq] at h2
          rw [← h2.1]; simp
        · simp only [Option.some.injEq, Prod.mk.injEq] at h
          rw [← h.1]; simp
      · cases h
    · cases h

/-- What a path is read from. -/
theorem modLoop_head {n : Nat} {ts : List TT} {l : List String} {r : List TT} (h : modLoop n ts = some (l, r)) :
    ∃ x sp r1, Begins (.ident x sp) r1 ts ∧ PlainWord x ∧
      ((l = [x] ∧ r = r1 ∧ colons r1 = none) ∨
        ∃ m l' r2, l = x :: l' ∧ ColonsText r2 r1 ∧ modLoop m r2 = some (l', r)) := by
  cases n with
  | zero => cases h
  | succ n =>
    rw [modLoop] at h
    split at h
    · rename_i h1
      split at h
      · rename_i hx
        split at h
        · rename_i h2
          obtain ⟨⟨l', r'⟩, h3, h4⟩ := Option.map_eq_some_iff.1 h
          simp only [Prod.mk.injEq] at h4
          obtain ⟨rfl, rfl⟩ := h4
          exact ⟨_, _, _, begins_iff.2 h1, plainWord_iff.1 hx, .inr ⟨n, _, _, rfl, colons_iff.2 h2, h3⟩⟩
        · rename_i h2
          simp only [Option.some.injEq, Prod.mk.injEq] at h
          exact ⟨_, _, _, begins_iff.2 h1, plainWord_iff.1 hx, .inl ⟨h.1.symm, h.2.symm, h2⟩⟩
      · cases h
    · cases h

/-- What a path of one word is read from. -/
theorem modLoop_single {n : Nat} {ts : List TT} {x : String} {r : List TT} (h : modLoop n ts = some ([x], r)) :
    ∃ sp, Begins (.ident x sp) r ts ∧ PlainWord x := by
  obtain ⟨y, sp, r1, h1, hy, ⟨h2, rfl, -⟩ | ⟨m, l', r2, h2, -, h4⟩⟩ := modLoop_head h
  · obtain rfl : x = y := by simpa using h2
    exact ⟨sp, h1, hy⟩
  · simp only [List.cons.injEq] at h2
    exact absurd h2.2.symm (modLoop_ne h4)

/-- What a path of two words is read from. -/
theorem modSegments_pair {ts : List TT} {x : String} {r : List TT} (h : modSegments ts = some (["hooq", x], r)) :
    HooqText x r ts ∧ PlainWord x := by
  obtain ⟨y, sp, r1, h1, hy, ⟨h2, -⟩ | ⟨m, l', r2, h2, h3, h4⟩⟩ := modLoop_head h
  · simp at h2
  · simp only [List.cons.injEq] at h2
    obtain ⟨rfl, rfl⟩ := h2
    obtain ⟨sp', h5, hx⟩ := modLoop_single h4
    exact ⟨⟨sp, sp', r1, r2, h1, h3, h5⟩, hx⟩

theorem modLoop_word {x : String} (hx : PlainWord x) {sp : Span} {r ts : List TT} (h : Begins (.ident x sp) r ts)
    (hr : colons r = none) {n : Nat} (hn : (openedAll ts).length ≤ n) : modLoop n ts = some ([x], r) := by
  have := enters_shorter h
  obtain ⟨n, rfl⟩ : ∃ m, n = m + 1 := ⟨n - 1, by omega⟩
  simp [modLoop, begins_iff.1 h, plainWord_iff.2 hx, hr]

theorem plain_hooq : PlainWord "hooq" := by unfold PlainWord; decide +kernel

/-- A path `hooq::x` or `::hooq::x` is written so. -/
theorem metaPath_pair {ts : List TT} {p : Path} {r : List TT} (h : metaPath ts = some (p, r)) (hp : p.IsHooqPair) :
    ∃ x, PlainWord x ∧ ((p = hooqPath x ∧ HooqText x r ts) ∨
      (p = { hooqPath x with leading := true } ∧ ∃ r', ColonsText r' ts ∧ HooqText x r r')) := by
  obtain ⟨s, t, h1, h2⟩ := hp
  have key : ∀ {l : List String} {b : Bool}, p = { Path.ofIdents l with leading := b } →
      ∃ x, l = ["hooq", x] := by
    rintro l b rfl
    match l, h1 with
    | [x, y], h1 =>
      simp only [Path.ofIdents, List.map_cons, List.map_nil, List.cons.injEq, and_true] at h1
      refine ⟨y, ?_⟩
      rw [← h1.1] at h2
      simp only at h2
      rw [h2]
    | [], h1 => simp [Path.ofIdents] at h1
    | [_], h1 => simp [Path.ofIdents] at h1
    | _ :: _ :: _ :: _, h1 => simp [Path.ofIdents] at h1
  unfold metaPath at h
  split at h
  · simp only [Option.some.injEq, Prod.mk.injEq] at h
    rw [← h.1] at h1
    simp [Path.ofIdents] at h1
  · split at h
    · rename_i hc
      obtain ⟨⟨l, r'⟩, h3, h4⟩ := Option.map_eq_some_iff.1 h
      simp only [Prod.mk.injEq] at h4
      obtain ⟨h4, rfl⟩ := h4
      obtain ⟨x, rfl⟩ := key h4.symm
      obtain ⟨h5, h6⟩ := modSegments_pair h3
      exact ⟨x, h6, .inr ⟨h4.symm, _, colons_iff.2 hc, h5⟩⟩
    · obtain ⟨⟨l, r'⟩, h3, h4⟩ := Option.map_eq_some_iff.1 h
      simp only [Prod.mk.injEq] at h4
      obtain ⟨h4, rfl⟩ := h4
      obtain ⟨x, rfl⟩ := key (b := false) h4.symm
      obtain ⟨h5, h6⟩ := modSegments_pair h3
      exact ⟨x, h6, .inl ⟨h4.symm, h5⟩⟩

theorem modSegments_hooq {x : String} {r ts : List TT} (h : HooqText x r ts) (hx : PlainWord x)
    (hr : colons r = none) : modSegments ts = some (["hooq", x], r) := by
  obtain ⟨sp1, sp2, r1, r2, h1, h2, h3⟩ := h
  have h4 := enters_shorter h1
  have h5 := colons_shorter (colons_iff.1 h2)
  unfold modSegments
  obtain ⟨n, hn⟩ : ∃ m, (openedAll ts).length = m + 1 := ⟨_, (Nat.succ_pred_eq_of_pos (by omega)).symm⟩
  simp [hn, modLoop, begins_iff.1 h1, plainWord_iff.2 plain_hooq, colons_iff.1 h2,
    modLoop_word hx h3 hr (n := n) (by omega)]

theorem metaPath_hooq {x : String} {r ts : List TT} (h : HooqText x r ts) (hx : PlainWord x)
    (hr : colons r = none) : metaPath ts = some (hooqPath x, r) := by
  have hm := modSegments_hooq h hx hr
  obtain ⟨sp1, sp2, r1, r2, h1, h2, h3⟩ := h
  rw [metaPath_other (begins_iff.1 h1) (by decide), hm]
  rfl

theorem metaPath_rooted_hooq {x : String} {r r' ts : List TT} (hc : ColonsText r' ts) (h : HooqText x r r')
    (hx : PlainWord x) (hr : colons r = none) : metaPath ts = some ({ hooqPath x with leading := true }, r) := by
  rw [metaPath_colons (colons_iff.1 hc), modSegments_hooq h hx hr]
  rfl

/-- A hooq attribute begins so. -/
theorem metaPath_start {ts : List TT} {p : Path} {r : List TT} (h : metaPath ts = some (p, r)) :
    (∃ s y l, p.segs = s :: y :: l ∧ s.ident = "hooq") ↔ HooqStart ts := by
  have key : ∀ {ts : List TT} {l : List String} {r : List TT}, modSegments ts = some (l, r) →
      ((∃ y l', l = "hooq" :: y :: l') ↔ ∃ sp r r', Begins (.ident "hooq" sp) r ts ∧ ColonsText r' r) := by
    intro ts l r h
    obtain ⟨x, sp, r1, h1, -, ⟨rfl, rfl, h2⟩ | ⟨m, l', r2, rfl, h3, h4⟩⟩ := modLoop_head h
    · constructor
      · rintro ⟨y, l', h⟩; simp at h
      · rintro ⟨sp', r2, r3, h3, h4⟩
        rw [begins_iff] at h1 h3
        rw [h1] at h3
        simp only [Option.some.injEq, List.cons.injEq] at h3
        rw [← h3.2, colons_iff, h2] at h4
        cases h4
    · have := modLoop_ne h4
      obtain ⟨y, l', rfl⟩ := List.exists_cons_of_ne_nil this
      constructor
      · rintro ⟨y', l'', h⟩
        simp only [List.cons.injEq] at h
        obtain ⟨rfl, -⟩ := h
        exact ⟨sp, r1, r2, h1, h3⟩
      · rintro ⟨sp', r3, r4, h5, -⟩
        rw [begins_iff] at h1 h5
        rw [h1] at h5
        simp only [Option.some.injEq, List.cons.injEq, TT.ident.injEq] at h5
        exact ⟨y, l', by rw [h5.1.1]⟩
  have pure : ∀ {b : Bool} {l : List String}, p = { Path.ofIdents l with leading := b } →
      ((∃ s y l, p.segs = s :: y :: l ∧ s.ident = "hooq") ↔ ∃ y l', l = "hooq" :: y :: l') := by
    rintro b l rfl
    match l with
    | [] => simp [Path.ofIdents]
    | [x] => simp [Path.ofIdents]
    | x :: y :: l => simp [Path.ofIdents]
  unfold metaPath at h
  split at h
  · rename_i hu
    simp only [Option.some.injEq, Prod.mk.injEq] at h
    rw [pure (b := false) (l := ["unsafe"]) h.1.symm]
    constructor
    · simp
    · rintro ⟨ts', rfl | hc, sp, r1, r2, h1, -⟩
      · rw [begins_iff, hu] at h1
        simp at h1
      · obtain ⟨sp1, -, r3, h3, -⟩ := hc
        rw [begins_iff, hu] at h3
        simp at h3
  · split at h
    · rename_i hc
      obtain ⟨⟨l, r'⟩, h1, h2⟩ := Option.map_eq_some_iff.1 h
      simp only [Prod.mk.injEq] at h2
      rw [pure (b := true) h2.1.symm, key h1]
      constructor
      · exact fun h => ⟨_, .inr (colons_iff.2 hc), h⟩
      · rintro ⟨ts', rfl | hc', h⟩
        · obtain ⟨sp, r1, r2, h3, -⟩ := h
          obtain ⟨sp1, -, r3, h4, -⟩ := colons_iff.2 hc
          rw [begins_iff] at h3 h4
          rw [h3] at h4
          simp at h4
        · rw [colons_iff, hc] at hc'
          obtain rfl := Option.some.inj hc'
          exact h
    · rename_i hc
      obtain ⟨⟨l, r'⟩, h1, h2⟩ := Option.map_eq_some_iff.1 h
      simp only [Prod.mk.injEq] at h2
      rw [pure (b := false) h2.1.symm, key h1]
      constructor
      · exact fun h => ⟨_, .inl rfl, h⟩
      · rintro ⟨ts', rfl | hc', h'⟩
        · exact h'
        · rw [colons_iff, hc] at hc'
          cases hc'

/-- What `readAttr` reads. -/
theorem readAttr_cases {value : List TT → Option (Value × List TT)} {ts : List TT} {a : Attr}
    (h : readAttr value ts = some a) :
    (∃ p r, a = .path p ∧ metaPath ts = some (p, r) ∧ Blank r) ∨
    (∃ p d g sp r, a = .list p g ∧ d ≠ .none ∧ metaPath ts = some (p, .group d g sp :: r) ∧ Blank r) ∨
    ∃ p v r, a = .nv p v ∧ metaPath ts = some (p, r) ∧ EqText value v r := by
  unfold readAttr at h
  split at h
  · rename_i m rest hm
    split at h
    · rename_i hb
      obtain rfl := Option.some.inj h
      rcases metaOne_cases hm with ⟨p, rfl, hp⟩ | ⟨p, d, g, sp, rfl, hd, hp⟩ | ⟨p, v, r1, sp, r2, rfl, hp, h1, h2⟩
      · exact .inl ⟨p, _, rfl, hp, blank_iff.2 hb⟩
      · exact .inr (.inl ⟨p, d, g, sp, _, rfl, hd, hp, blank_iff.2 hb⟩)
      · exact .inr (.inr ⟨p, v, _, rfl, hp, sp, r2, begins_iff.2 h1, _, h2, blank_iff.2 hb⟩)
    · cases h
  · cases h

theorem blank_entered {r : List TT} (h : Blank r) : enteredAll r = none := Option.isNone_iff_eq_none.1 (blank_iff.1 h)

theorem readAttr_path {value : List TT → Option (Value × List TT)} {ts r : List TT} {p : Path}
    (h : metaPath ts = some (p, r)) (hr : Blank r) : readAttr value ts = some (.path p) := by
  simp [readAttr, metaOne, h, blank_entered hr]

theorem readAttr_list {value : List TT → Option (Value × List TT)} {ts g r : List TT} {p : Path} {d : Delim} {sp : Span}
    (h : metaPath ts = some (p, .group d g sp :: r)) (hd : d ≠ .none) (hr : Blank r) :
    readAttr value ts = some (.list p g) := by
  simp [readAttr, metaOne_list h hd, blank_entered hr]

theorem readAttr_nv {value : List TT → Option (Value × List TT)} {ts r : List TT} {p : Path} {v : Value}
    (h : metaPath ts = some (p, r)) (hv : EqText value v r) : readAttr value ts = some (.nv p v) := by
  obtain ⟨sp, r', h1, rest, h2, h3⟩ := hv
  simp [readAttr, metaOne_nv h (begins_iff.1 h1), h2, blank_entered h3]

theorem readAttr_inert {value : List TT → Option (Value × List TT)} {ts : List TT} {a : Attr}
    (h : readAttr value ts = some a) : a.isInert = true ↔ HooqStart ts := by
  have key : ∀ {r}, metaPath ts = some (a.getPath, r) → (a.isInert = true ↔ HooqStart ts) := by
    intro r hp
    rw [← metaPath_start hp]
    unfold Meta.isInert
    split
    · rename_i s y l hs
      simp [hs]
    · rename_i hs
      constructor
      · intro h; cases h
      · rintro ⟨s, y, l, h1, -⟩
        exact absurd h1 (hs s y l)
  rcases readAttr_cases h with ⟨p, r, rfl, hp, -⟩ | ⟨p, d, g, sp, r, rfl, -, hp, -⟩ | ⟨p, v, r, rfl, hp, -⟩ <;>
    exact key hp

theorem targets_named {l : List String} (h : ∀ s ∈ l, KnownTarget s) : Targets.parse l = .ok (namedTargets l) := by
  obtain ⟨sw, hs⟩ := (C29_accepted l).2 h
  rw [hs]
  have hk : ∀ k, sw.has k = (namedTargets l).has k := by
    intro k
    rw [Bool.eq_iff_iff, C29_union hs]
    have : ((namedTargets l).has k = true) ↔
        (l.any fun s => targetNames.any fun t => t.1 == s && t.2.contains k) = true := by
      cases k <;> rfl
    rw [this]
    simp only [NamesKind, List.any_eq_true, Bool.and_eq_true, beq_iff_eq, List.contains_eq_mem, decide_eq_true_eq]
    constructor
    · rintro ⟨s, h1, l', h2, h3⟩
      exact ⟨s, h1, _, h2, rfl, h3⟩
    · rintro ⟨s, h1, ⟨n, l'⟩, h2, rfl, h3⟩
      exact ⟨_, h1, l', h2, h3⟩
  have q := hk .question
  have r := hk .ret
  have t := hk .tail
  simp only [Targets.has] at q r t
  cases sw; cases hn : namedTargets l
  simp_all

theorem nameValue_ident {value : List TT → Option (Value × List TT)} {ts : List TT} {x : String} {v : Value} :
    nameValue value ts = some (.ofIdents [x], v) ↔
      ∃ sp r, Begins (.ident x sp) r ts ∧ (PlainWord x ∨ x = "unsafe") ∧ EqText value v r := by
  constructor
  · intro h
    unfold nameValue at h
    split at h
    · rename_i p r hp
      split at h
      · rename_i sp r' hr
        split at h
        · rename_i v' rest hv
          split at h
          · rename_i hb
            simp only [Option.some.injEq, Prod.mk.injEq] at h
            obtain ⟨rfl, rfl⟩ := h
            have hq : EqText value v' r := ⟨sp, r', begins_iff.2 hr, rest, hv, blank_iff.2 hb⟩
            unfold metaPath at hp
            split at hp
            · rename_i hu
              simp only [Option.some.injEq, Prod.mk.injEq] at hp
              obtain ⟨h1, rfl⟩ := hp
              obtain rfl : "unsafe" = x := by simpa [Path.ofIdents] using h1
              exact ⟨_, _, begins_iff.2 hu, .inr rfl, hq⟩
            · split at hp
              · obtain ⟨⟨l, r'⟩, h1, h2⟩ := Option.map_eq_some_iff.1 hp
                simp [Path.ofIdents] at h2
              · obtain ⟨⟨l, r'⟩, h1, h2⟩ := Option.map_eq_some_iff.1 hp
                simp only [Prod.mk.injEq] at h2
                obtain ⟨h2, rfl⟩ := h2
                obtain rfl : l = [x] := by
                  have := congrArg (fun p : Path => p.segs.map (·.ident)) h2
                  simpa [Path.ofIdents, Function.comp_def] using this
                obtain ⟨sp', h3, hx⟩ := modLoop_single h1
                exact ⟨sp', _, h3, .inl hx, hq⟩
          · cases h
        · cases h
      · cases h
    · cases h
  · rintro ⟨sp, r, h1, hx, sp2, r', h2, rest, h3, h4⟩
    have hc : colons r = none := by simp [colons, begins_iff.1 h2]
    have hm : metaPath ts = some (.ofIdents [x], r) := by
      by_cases hu : x = "unsafe"
      · subst hu; simp [metaPath, begins_iff.1 h1]
      · rw [metaPath_other (begins_iff.1 h1) hu, modSegments, modLoop_word (hx.resolve_right hu) h1 hc le_rfl]
        rfl
    simp [nameValue, hm, begins_iff.1 h2, h3, blank_entered h4]

theorem blank_colons {r : List TT} (h : Blank r) : colons r = none := by simp [colons, blank_entered h]

theorem eqText_colons {value : List TT → Option (Value × List TT)} {v : Value} {r : List TT} (h : EqText value v r) :
    colons r = none := by
  obtain ⟨sp, r', h1, -⟩ := h
  simp [colons, begins_iff.1 h1]

theorem flavorOfValue_of {env : Env} {v : Value} {f : Settings} (h : flavorOf env v = some f) (s : String) :
    flavorOfValue env v s = .ok f := by
  have key : ∀ {e e' : Except Err Settings}, e.toOption = some f → (∀ r, e = .ok r → e' = .ok r) → e' = .ok f := by
    intro e e' h1 h2
    cases e with
    | error _ => cases h1
    | ok r => cases h1; exact h2 _ rfl
  refine key h fun r hr => ?_
  unfold flavorOfValue getFlavorPath at hr ⊢
  cases hv : v.view <;> simp_all [bind, Except.bind]

/-- The text of an inert attribute is read as an attribute that says the same. -/
theorem inertText_read {value : List TT → Option (Value × List TT)} {env : Env}
    (hn : env.parseNameValue = nameValue value) {s : InertSays} {ts : List TT} (h : InertText value env s ts) :
    ∃ a, readAttr value ts = some a ∧ ∀ i, inertStep env i a = .ok (s.on env i, false) := by
  have w : ∀ x ∈ ["skip", "skip_all", "method", "hook_targets", "tail_expr_idents", "ignore_tail_expr_idents",
      "result_types", "hook_in_macros", "binding", "var", "flavor", "bindings"], PlainWord x := by
    unfold PlainWord; decide +kernel
  have list : ∀ {x g ts}, HooqList x g ts → PlainWord x → readAttr value ts = some (.list (hooqPath x) g) := by
    rintro x g ts ⟨d, sp, r, h, hd, hr⟩ hx
    exact readAttr_list (metaPath_hooq h hx (by simp [colons, group_plain hd])) hd hr
  cases h with
  | skip h hr =>
    refine ⟨_, readAttr_path (metaPath_hooq h (w _ (by simp)) (blank_colons hr)) hr, fun i => ?_⟩
    simp [inertStep, InertSays.on]
  | skipAll h hr =>
    refine ⟨_, readAttr_path (metaPath_hooq h (w _ (by simp)) (blank_colons hr)) hr, fun i => ?_⟩
    simp [inertStep, InertSays.on, hooqPath_inj]
  | method h =>
    exact ⟨_, list h (w _ (by simp)), fun i => by simp [inertStep, InertSays.on]⟩
  | targets h hs hk =>
    refine ⟨_, list h (w _ (by simp)), fun i => ?_⟩
    simp [inertStep, InertSays.on, hooqPath_inj, (parseStrings_text _ _).2 hs, targets_named hk]
  | @tail _ _ l h hs =>
    refine ⟨_, list h (w _ (by simp)), fun i => ?_⟩
    simp only [inertStep, InertSays.on, hooqPath_inj, (parseStrings_text _ _).2 hs, splitInclude_fst, splitInclude_snd,
      moreIgnored]
    cases hi : i.ignoreIdents <;> by_cases hb : bangs l = [] <;> simp [hb]
  | ignore h hs =>
    refine ⟨_, list h (w _ (by simp)), fun i => ?_⟩
    simp only [inertStep, InertSays.on, hooqPath_inj, (parseStrings_text _ _).2 hs, moreIgnored, appendIgnore]
    cases hi : i.ignoreIdents <;> simp
  | results h hs =>
    refine ⟨_, list h (w _ (by simp)), fun i => ?_⟩
    simp [inertStep, InertSays.on, hooqPath_inj, (parseStrings_text _ _).2 hs]
  | macros h hx hw =>
    refine ⟨_, list h (w _ (by simp)), fun i => ?_⟩
    rcases hx with rfl | rfl
    · simp [inertStep, InertSays.on, hooqPath_inj, (C55_bool _ true).2 hw]
    · simp [inertStep, InertSays.on, hooqPath_inj, (C55_bool _ false).2 hw]
  | binding sp h hx h1 hw hv =>
    refine ⟨_, list h (w _ (by rcases hx with rfl | rfl <;> simp)), fun i => ?_⟩
    have := (nameValue_ident (value := value)).2 ⟨sp, _, h1, hw, hv⟩
    rw [← hn] at this
    rcases hx with rfl | rfl <;> simp [inertStep, InertSays.on, hooqPath_inj, this, Path.ofIdents]
  | named h hx hs hv =>
    refine ⟨_, readAttr_nv (metaPath_hooq h hx (eqText_colons hv)) hv, fun i => ?_⟩
    simp only [settingNames, List.mem_cons, List.not_mem_nil, or_false, not_or] at hs
    simp [inertStep, InertSays.on, hs, getBindingName, hooqPath, Path.ofIdents, bind, Except.bind]
  | rooted hc h hx hv =>
    refine ⟨_, readAttr_nv (metaPath_rooted_hooq hc h hx (eqText_colons hv)) hv, fun i => ?_⟩
    simp [inertStep, InertSays.on, getBindingName, hooqPath, Path.ofIdents, bind, Except.bind]
  | setting h hx hv hf =>
    refine ⟨_, readAttr_nv (metaPath_hooq h (w _ ?_) (eqText_colons hv)) hv, fun i => ?_⟩
    · revert hx
      simp only [List.mem_cons, List.not_mem_nil, or_false]
      tauto
    have := flavorOfValue_of hf
    simp only [List.mem_cons, List.not_mem_nil, or_false] at hx
    rcases hx with rfl | rfl | rfl | rfl | rfl | rfl | rfl <;>
      simp [inertStep, InertSays.on, hooqPath_inj, this, bind, Except.bind]

/-- An attribute that is accepted as an inert attribute is a text of one. -/
theorem inertText_of_read {value : List TT → Option (Value × List TT)} {env : Env}
    (hn : env.parseNameValue = nameValue value) {ts : List TT} {a : Attr} (h : readAttr value ts = some a)
    (hi : a.isInert = true) (ha : AttrOk env a) : ∃ s, InertText value env s ts := by
  have plain : ∀ {x : String} {r : List TT}, metaPath ts = some (hooqPath x, r) → HooqText x r ts := by
    intro x r hp
    obtain ⟨y, h2, ⟨h3, h4⟩ | ⟨h3, -⟩⟩ := metaPath_pair hp ⟨⟨"hooq", false⟩, ⟨x, false⟩, rfl, rfl⟩
    · rw [hooqPath_inj] at h3
      subst h3
      exact h4
    · simp [hooqPath, Path.ofIdents] at h3
  rcases ha with ha | ha
  · rw [hi] at ha; simp at ha
  rcases readAttr_cases h with ⟨p, r, rfl, hp, hr⟩ | ⟨p, d, g, sp, r, rfl, hd, hp, hr⟩ | ⟨p, v, r, rfl, hp, hv⟩
  · simp only [List.map_cons, List.map_nil, List.mem_cons, List.not_mem_nil, or_false] at ha
    rcases ha with rfl | rfl
    · exact ⟨.skip, .skip (plain hp) hr⟩
    · exact ⟨.skipAll, .skipAll (plain hp) hr⟩
  · have list : ∀ {x : String}, p = hooqPath x → HooqList x g ts := by
      rintro x rfl
      exact ⟨d, sp, r, plain hp, hd, hr⟩
    rcases ha with rfl | ⟨rfl, l, h1, h2⟩ | ⟨h1, l, h2⟩ | ⟨rfl, b, h1⟩ | ⟨h1, x, v, h2⟩
    · exact ⟨_, .method (list rfl)⟩
    · exact ⟨_, .targets (list rfl) ((parseStrings_text _ _).1 h1) h2⟩
    · rw [parseStrings_text] at h2
      simp only [List.map_cons, List.map_nil, List.mem_cons, List.not_mem_nil, or_false] at h1
      rcases h1 with rfl | rfl | rfl
      · exact ⟨_, .tail (list rfl) h2⟩
      · exact ⟨_, .ignore (list rfl) h2⟩
      · exact ⟨_, .results (list rfl) h2⟩
    · exact ⟨_, .macros (list rfl) (by cases b <;> simp) ((C55_bool g b).1 h1)⟩
    · rw [hn] at h2
      obtain ⟨sp1, r1, h3, hw, hv⟩ := nameValue_ident.1 h2
      simp only [List.map_cons, List.map_nil, List.mem_cons, List.not_mem_nil, or_false] at h1
      rcases h1 with rfl | rfl
      · exact ⟨_, .binding sp1 (list rfl) (.inl rfl) h3 hw hv⟩
      · exact ⟨_, .binding sp1 (list rfl) (.inr rfl) h3 hw hv⟩
  · rcases ha with ⟨h1, f, h2⟩ | ⟨h1, h2⟩
    · obtain ⟨x, hx, rfl⟩ := List.mem_map.1 h1
      exact ⟨_, .setting (plain hp) hx hv h2⟩
    · obtain ⟨x, h4, ⟨rfl, h6⟩ | ⟨rfl, r', hc, h6⟩⟩ := metaPath_pair hp h1
      · have hx : x ∉ settingNames := fun hx => h2 (List.mem_map.2 ⟨x, hx, rfl⟩)
        exact ⟨_, .named h6 h4 hx hv⟩
      · exact ⟨_, .rooted hc h6 h4 hv⟩

/-- C79, one attribute.  An attribute is accepted exactly if it does not begin with `hooq::` or
`::hooq::`, and then it stays, or it is the text of an inert attribute, and then it is
removed and says what the text says. -/
theorem C79_one {value : List TT → Option (Value × List TT)} {env : Env}
    (hn : env.parseNameValue = nameValue value) {ts : List TT} {a : Attr} (h : readAttr value ts = some a)
    (i j : Inert) (kept : List Attr) :
    extractFrom env i [a] = .ok (j, kept) ↔
      (¬ HooqStart ts ∧ j = i ∧ kept = [a]) ∨ ∃ s, InertText value env s ts ∧ j = s.on env i ∧ kept = [] := by
  have hh := readAttr_inert h
  cases ha : a.isInert with
  | false =>
    rw [ha] at hh
    have hs : ¬ HooqStart ts := fun h' => by simpa using hh.2 h'
    have ht : ∀ s, ¬ InertText value env s ts := by
      intro s hs'
      obtain ⟨a', h1, h2⟩ := inertText_read hn hs'
      rw [h] at h1
      cases h1
      have := h2 i
      rw [inertStep_foreign env i ha] at this
      simp at this
    simp only [extractFrom, inertStep_foreign env i ha, bind, Except.bind, hs, ht, false_and, exists_false, or_false,
      not_false_eq_true, true_and, if_true, Except.ok.injEq, Prod.mk.injEq]
    exact and_congr eq_comm eq_comm
  | true =>
    rw [ha] at hh
    have hs : HooqStart ts := hh.1 rfl
    simp only [hs, not_true_eq_false, false_and, false_or]
    constructor
    · intro he
      have hok : AttrOk env a := by
        rw [← inertStep_ok_iff env i a]
        simp only [extractFrom, bind, Except.bind] at he
        cases hst : inertStep env i a with
        | error e => simp [hst] at he
        | ok r => exact ⟨r, rfl⟩
      obtain ⟨s, hs'⟩ := inertText_of_read hn h ha hok
      obtain ⟨a', h1, h2⟩ := inertText_read hn hs'
      rw [h] at h1
      cases h1
      simp only [extractFrom, h2 i, bind, Except.bind, Except.ok.injEq, Prod.mk.injEq, Bool.false_eq_true,
        if_false] at he
      exact ⟨s, hs', he.1.symm, he.2.symm⟩
    · rintro ⟨s, hs', rfl, rfl⟩
      obtain ⟨a', h1, h2⟩ := inertText_read hn hs'
      rw [h] at h1
      cases h1
      simp only [extractFrom, h2 i, bind, Except.bind, Bool.false_eq_true, if_false]

/-- C79.  The attributes of a node are accepted exactly if each of them is one or the other.
They set what the inert ones say, in order, and the others stay. -/
theorem C79_accepted {value : List TT → Option (Value × List TT)} {env : Env}
    (hn : env.parseNameValue = nameValue value) {tss : List (List TT)} {attrs : List Attr}
    (h : readAttrs value tss = some attrs) (i : Inert) (kept : List Attr) :
    extract env attrs = .ok (i, kept) ↔ ∃ os : List (Option InertSays),
      List.Forall₂ (AttrText value env) os tss ∧ i = (os.filterMap id).foldl (InertSays.on env) {} ∧
      kept = ((os.zip attrs).filter fun p => p.1.isNone).map (·.2) := by
  have key : ∀ (tss : List (List TT)) (attrs : List Attr), readAttrs value tss = some attrs → ∀ (i0 i : Inert) kept,
      extractFrom env i0 attrs = .ok (i, kept) ↔ ∃ os : List (Option InertSays),
        List.Forall₂ (AttrText value env) os tss ∧ i = (os.filterMap id).foldl (InertSays.on env) i0 ∧
        kept = ((os.zip attrs).filter fun p => p.1.isNone).map (·.2) := by
    intro tss
    induction tss with
    | nil =>
      intro attrs h i0 i kept
      obtain rfl := Option.some.inj h
      simp [extractFrom, eq_comm]
    | cons ts tss ih =>
      intro attrs h i0 i kept
      simp only [readAttrs] at h
      split at h
      · rename_i a as ha has
        obtain rfl := Option.some.inj h
        have one := C79_one hn ha i0
        simp only [extractFrom, bind, Except.bind] at one ⊢
        cases hs : inertStep env i0 a with
        | error e =>
          simp only [hs, reduceCtorEq, false_iff, not_or, not_exists, not_and] at one ⊢
          intro os hos
          cases hos with
          | @cons o _ os' _ ho _ =>
            cases o with
            | none => exact absurd rfl (((one i0 [a]).1 ho) rfl)
            | some s => exact absurd rfl ((one (s.on env i0) []).2 s ho rfl)
        | ok r =>
          obtain ⟨i1, keep⟩ := r
          simp only [hs] at one ⊢
          have hone := (one i1 (if keep = true then [a] else [])).1 rfl
          constructor
          · intro he
            cases hr : extractFrom env i1 as with
            | error e => simp [hr] at he
            | ok r =>
              obtain ⟨i2, k2⟩ := r
              simp only [hr, Except.ok.injEq, Prod.mk.injEq] at he
              obtain ⟨rfl, rfl⟩ := he
              obtain ⟨os, h1, h2, h3⟩ := (ih as has i1 i2 k2).1 hr
              rcases hone with ⟨h4, h5, h6⟩ | ⟨s, h4, h5, h6⟩
              · have hk : keep = true := by cases keep <;> simp at h6 ⊢
                refine ⟨none :: os, .cons h4 h1, ?_, ?_⟩
                · rw [h2, h5]; rfl
                · simp [hk, h3]
              · have hk : keep = false := by cases keep <;> simp at h6 ⊢
                refine ⟨some s :: os, .cons h4 h1, ?_, ?_⟩
                · rw [h2, h5]; rfl
                · simp [hk, h3]
          · rintro ⟨os, hos, rfl, rfl⟩
            cases hos with
            | @cons o _ os _ ho hos =>
              have hst : inertStep env i0 a = .ok (match o with | some s => (s.on env i0, false) | none => (i0, true)) := by
                cases o with
                | none =>
                  refine inertStep_foreign env i0 ?_
                  cases hb : a.isInert with
                  | false => rfl
                  | true => exact absurd ((readAttr_inert ha).1 hb) ho
                | some s =>
                  obtain ⟨a', h1, h2⟩ := inertText_read hn ho
                  rw [ha] at h1
                  cases h1
                  exact h2 i0
              rw [hs] at hst
              have hr := (ih as has i1 _ _).2 ⟨os, hos, rfl, rfl⟩
              simp only [hr]
              cases o with
              | none =>
                simp only [Except.ok.injEq, Prod.mk.injEq] at hst
                obtain ⟨rfl, rfl⟩ := hst
                simp
              | some s =>
                simp only [Except.ok.injEq, Prod.mk.injEq] at hst
                obtain ⟨rfl, rfl⟩ := hst
                simp
      · cases h
  exact key tss attrs h {} i kept

/-- C79, unambiguous.  A text never says two different things. -/
theorem C79_unique {value : List TT → Option (Value × List TT)} {env : Env}
    (hn : env.parseNameValue = nameValue value) {s s' : InertSays} {ts : List TT} (h : InertText value env s ts)
    (h' : InertText value env s' ts) (i : Inert) : s.on env i = s'.on env i := by
  obtain ⟨a, h1, h2⟩ := inertText_read hn h
  obtain ⟨a', h3, h4⟩ := inertText_read hn h'
  rw [h1] at h3
  cases h3
  have := (h2 i).symm.trans (h4 i)
  simpa using this

/-! ## Examples -/

open Ex

/-- An environment that reads `name = value` from tokens. -/
def Ex.textEnv : Env := { env with parseNameValue := nameValue readValue }

/-- `hooq::x`. -/
def Ex.hooqTk (x : String) : List TT := [tkId "hooq", tkP ':', tkP ':', tkId x]

theorem Ex.hooqTk_text (x : String) (r : List TT) : HooqText x r (hooqTk x ++ r) :=
  ⟨_, _, _, _, begins_iff.2 rfl, colons_iff.2 rfl, begins_iff.2 rfl⟩

theorem Ex.hooqTk_list (x : String) (g : List TT) : HooqList x g (hooqTk x ++ [.group .paren g .callSite]) :=
  ⟨.paren, _, _, hooqTk_text x _, by decide, blank_iff.2 rfl⟩

/-- `#[hooq::tail_expr_idents("Err", "!Ok")]`, `#[inline]` and `#[hooq::var(x = "a")]`. -/
def Ex.someAttrs : List (List TT) :=
  [hooqTk "tail_expr_idents" ++ [.group .paren [tkStr "Err", tkP ',', tkStr "!Ok"] .callSite], [tkId "inline"],
   hooqTk "var" ++ [.group .paren [tkId "x", tkP '=', tkStr "a"] .callSite]]

example : ∃ attrs i, readAttrs readValue someAttrs = some attrs ∧
    extract textEnv attrs = .ok (i, [.path (.ofIdents ["inline"])]) ∧
    i.tailIdents = some ["Err"] ∧ i.ignoreIdents = some ["Ok"] ∧ (i.bindings.map (·.1)) = ["x"] := by
  refine ⟨_, _, rfl, (C79_accepted (value := readValue) (env := textEnv) rfl (tss := someAttrs) rfl _ _).2
    ⟨[some (.tail ["Err", "!Ok"]), none, some (.bind "x" { view := .litStr "a", text := "a" })], ?_, rfl, rfl⟩,
    by decide +kernel, by decide +kernel, by decide +kernel⟩
  refine .cons (.tail (hooqTk_list _ _) (plain_text (.cons _ _ _ (.one _ _)))) (.cons ?_ (.cons ?_ .nil))
  · simp [AttrText, HooqStart, tkId, begins_iff, colons_iff, colons, enteredAll, TT.entered]
  · exact .binding _ (hooqTk_list _ _) (.inr rfl) (begins_iff.2 rfl) (.inl (by unfold PlainWord; decide +kernel))
      ⟨_, _, begins_iff.2 rfl, _, rfl, blank_iff.2 rfl⟩

/-- `#[::hooq::method = "a"]` is no error: it binds the name `method`. -/
example : InertText readValue textEnv (.bind "method" { view := .litStr "a", text := "a" })
    (tkP ':' :: tkP ':' :: (hooqTk "method" ++ [tkP '=', tkStr "a"])) :=
  .rooted (colons_iff.2 rfl) (hooqTk_text _ _) (by unfold PlainWord; decide +kernel)
    ⟨_, _, begins_iff.2 rfl, _, rfl, blank_iff.2 rfl⟩

/-- An attribute that another macro gives as a whole, `#[$m]`, is an inert attribute, but not one
whose arguments alone are so given. -/
example : InertText readValue textEnv (.method [tkP '.', tkId "a"])
      [bare (hooqTk "method" ++ [.group .paren [tkP '.', tkId "a"] .callSite])] ∧
    readAttr readValue (hooqTk "method" ++ [bare [.group .paren [tkP '.', tkId "a"] .callSite]]) = none :=
  ⟨.method ⟨.paren, .callSite, [], ⟨_, _, _, _, begins_iff.2 rfl, colons_iff.2 rfl, begins_iff.2 rfl⟩, by decide,
    blank_iff.2 rfl⟩, rfl⟩

/-- `#[::hooq::skip]` begins like a hooq attribute and is none, so that it is an error. -/
example : ∃ a, readAttr readValue (tkP ':' :: tkP ':' :: hooqTk "skip") = some a ∧
    ∀ i, extractFrom textEnv {} [a] ≠ .ok i := by
  refine ⟨_, rfl, ?_⟩
  intro i h
  have : extractFrom textEnv {} [.path { hooqPath "skip" with leading := true }]
      = .error (.unknownAttr { hooqPath "skip" with leading := true }) := rfl
  exact absurd (this.symm.trans h) (by simp)

end Hooq
