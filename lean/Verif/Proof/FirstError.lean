import Verif.Spec.FirstError
import Verif.Proof.Errors
import Verif.Proof.Locality
import Verif.Props.Attr

/-!
# The first error
-/

namespace Hooq

theorem except_bind_err {ε α β : Type} {x : Except ε α} {f : α → Except ε β} {e : ε}
    (h : (x >>= f) = .error e) : x = .error e ∨ ∃ a, x = .ok a ∧ f a = .error e := by
  cases x with
  | error e' => simp [bind, Except.bind] at h; exact .inl (by rw [h])
  | ok a => exact .inr ⟨a, rfl, h⟩

/-! ## Attributes -/

theorem flavorOfValue_err {env : Env} {v : Value} {x : String} {e : Err} :
    flavorOfValue env v x = .error e ↔ FlavorErr env v x e := by
  constructor
  · intro h
    rw [flavorOfValue] at h
    rcases except_bind_err h with h | ⟨l, h1, h2⟩
    · rw [getFlavorPath] at h
      cases hv : v.view with
      | path p =>
        simp only [hv] at h
        cases hp : flavorPathOfPath p with
        | error e' => simp [hp, Except.mapError] at h; subst h; exact .path hv hp
        | ok l => simp [hp, Except.mapError] at h
      | litStr p =>
        simp only [hv] at h
        cases hp : flavorPathOfString p with
        | error e' => simp [hp, Except.mapError] at h; subst h; exact .string hv hp
        | ok l => simp [hp, Except.mapError] at h
      | other => simp only [hv, Except.error.injEq] at h; subst h; exact .value hv
    · rw [lookupFlavor] at h2
      cases hs : env.store with
      | error msg => simp only [hs, Except.error.injEq] at h2; subst h2; exact .load h1 hs
      | ok m =>
        simp only [hs] at h2
        cases hg : getFlavor m l with
        | ok f => simp [hg] at h2
        | error names => simp only [hg, Except.error.injEq] at h2; subst h2; exact .missing h1 hs hg
  · intro h
    cases h with
    | value hv => simp [flavorOfValue, getFlavorPath, hv, bind, Except.bind]
    | path hv hp => simp [flavorOfValue, getFlavorPath, hv, hp, bind, Except.bind, Except.mapError]
    | string hv hp => simp [flavorOfValue, getFlavorPath, hv, hp, bind, Except.bind, Except.mapError]
    | load h1 hs => simp [flavorOfValue, h1, lookupFlavor, hs, bind, Except.bind]
    | missing h1 hs hg => simp [flavorOfValue, h1, lookupFlavor, hs, hg, bind, Except.bind]

theorem getBindingName_err {p : Path} {e : Err} : getBindingName p = .error e ↔
    e = .attrForm p ∧ ∃ x y z rest, p.segs = x :: y :: z :: rest ∧ x.ident = "hooq" := by
  rcases p with ⟨l, segs⟩
  simp only [getBindingName]
  match segs with
  | [] => simp
  | [x] => by_cases hx : x.ident = "hooq" <;> simp [hx]
  | [x, y] => by_cases hx : x.ident = "hooq" <;> simp [hx]
  | x :: y :: z :: rest =>
    by_cases hx : x.ident = "hooq"
    · simp [hx, eq_comm]
    · simp [hx]

theorem getBindingName_pair {p : Path} {b : String} (h : getBindingName p = .ok (some b)) : p.IsHooqPair := by
  rcases getBindingName_cases p with h' | ⟨h', -⟩ | ⟨⟨e, h'⟩, -⟩
  · exact h'.2
  · rw [h] at h'; simp at h'
  · rw [h] at h'; simp at h'

theorem pair_binding {p : Path} (h : p.IsHooqPair) : ∃ b, getBindingName p = .ok (some b) := by
  obtain ⟨x, y, h1, h2⟩ := h
  exact ⟨y.ident, by simp [getBindingName, h1, h2]⟩

theorem deep_ne {p : Path} {x y z : Seg} {rest : List Seg} (h : p.segs = x :: y :: z :: rest) (n : String) :
    p ≠ hooqPath n := by
  rintro rfl
  simp [hooqPath, Path.ofIdents] at h

theorem inertStep_err (env : Env) (acc : Inert) (a : Attr) (e : Err) :
    inertStep env acc a = .error e ↔ AttrErr env a e := by
  constructor
  · intro h
    cases a with
    | path p =>
      simp only [inertStep] at h
      split at h
      · simp at h
      rename_i n1
      split at h
      · simp at h
      rename_i n2
      rcases except_bind_err h with h | ⟨b, h1, h2⟩
      · obtain ⟨rfl, x, y, z, rest, h3, h4⟩ := getBindingName_err.1 h
        exact .deep (a := .path p) h3 h4
      · cases b with
        | none => simp at h2
        | some b =>
          simp only [Except.error.injEq] at h2; subst h2
          exact .word (getBindingName_pair h1) (by simp [n1, n2])
    | list p ts =>
      simp only [inertStep] at h
      split at h
      · simp at h
      rename_i n1
      split at h
      · rename_i hp; subst hp
        split at h
        · rename_i hs
          simp only [Except.error.injEq] at h; subst h
          exact .strings (by simp) hs
        · rename_i l hs
          split at h
          · simp at h
          · rename_i x hx
            simp only [Except.error.injEq] at h; subst h
            obtain ⟨pre, post, rfl, h2, h3⟩ := parseFrom_error hx
            exact .target hs h2 h3
      rename_i n2
      split at h
      · rename_i hp; subst hp
        split at h
        · rename_i hs
          simp only [Except.error.injEq] at h; subst h
          exact .strings (by simp) hs
        · simp at h
      rename_i n3
      split at h
      · rename_i hp; subst hp
        split at h
        · rename_i hs
          simp only [Except.error.injEq] at h; subst h
          exact .strings (by simp) hs
        · simp at h
      rename_i n4
      split at h
      · rename_i hp; subst hp
        split at h
        · rename_i hs
          simp only [Except.error.injEq] at h; subst h
          exact .strings (by simp) hs
        · simp at h
      rename_i n5
      split at h
      · rename_i hp; subst hp
        split at h
        · rename_i hs
          simp only [Except.error.injEq] at h; subst h
          exact .bool hs
        · simp at h
      rename_i n6
      split at h
      · rename_i hp
        have hm : p ∈ ["binding", "var"].map hooqPath := by
          rcases hp with rfl | rfl <;> simp
        split at h
        · rename_i hs
          simp only [Except.error.injEq] at h; subst h
          exact .binding hm hs
        · rename_i q v hs
          split at h
          · simp at h
          · rename_i hne
            simp only [Except.error.injEq] at h; subst h
            exact .name hm hs fun x hx => hne x hx
      rename_i n7
      simp only [not_or] at n7
      rcases except_bind_err h with h | ⟨b, h1, h2⟩
      · obtain ⟨rfl, x, y, z, rest, h3, h4⟩ := getBindingName_err.1 h
        exact .deep (a := .list p ts) h3 h4
      · cases b with
        | none => simp at h2
        | some b =>
          simp only [Except.error.injEq] at h2; subst h2
          exact .call (getBindingName_pair h1) (by simp [n1, n2, n3, n4, n5, n6, n7])
    | nv p v =>
      have key : ∀ {x : String} {α : Type} {f : Settings → α},
          x ∈ ["flavor", "method", "hook_targets", "tail_expr_idents", "result_types",
            "hook_in_macros", "bindings"] →
          (flavorOfValue env v x >>= fun s => Except.ok (f s)) = .error e →
          AttrErr env (.nv (hooqPath x) v) e := by
        intro x α f hx h
        rcases except_bind_err h with h | ⟨_, _, h⟩
        · exact .flavor hx (flavorOfValue_err.1 h)
        · simp at h
      simp only [inertStep] at h
      split at h
      · rename_i hp; subst hp; exact key (by simp) h
      split at h
      · rename_i hp; subst hp; exact key (by simp) h
      split at h
      · rename_i hp; subst hp; exact key (by simp) h
      split at h
      · rename_i hp; subst hp; exact key (by simp) h
      split at h
      · rename_i hp; subst hp
        simp only [Except.error.injEq] at h; subst h
        exact .ignore
      split at h
      · rename_i hp; subst hp; exact key (by simp) h
      split at h
      · rename_i hp; subst hp; exact key (by simp) h
      split at h
      · rename_i hp; subst hp; exact key (by simp) h
      rcases except_bind_err h with h | ⟨b, h1, h2⟩
      · obtain ⟨rfl, x, y, z, rest, h3, h4⟩ := getBindingName_err.1 h
        exact .deep (a := .nv p v) h3 h4
      · cases b <;> simp at h2
  · intro h
    cases h with
    | @deep a x y z rest h1 h2 =>
      have hg : getBindingName a.getPath = .error (.attrForm a.getPath) :=
        getBindingName_err.2 ⟨rfl, x, y, z, rest, h1, h2⟩
      have hn := deep_ne h1
      cases a with
      | path p => simp only [Meta.getPath] at hg hn; simp [inertStep, hn, hg, bind, Except.bind, Meta.getPath]
      | list p ts => simp only [Meta.getPath] at hg hn; simp [inertStep, hn, hg, bind, Except.bind, Meta.getPath]
      | nv p v => simp only [Meta.getPath] at hg hn; simp [inertStep, hn, hg, bind, Except.bind, Meta.getPath]
    | @word p h1 h2 =>
      obtain ⟨b, hb⟩ := pair_binding h1
      simp only [List.map_cons, List.map_nil, List.mem_cons, List.not_mem_nil, or_false, not_or] at h2
      simp [inertStep, h2, hb, bind, Except.bind]
    | @call p ts h1 h2 =>
      obtain ⟨b, hb⟩ := pair_binding h1
      simp only [List.map_cons, List.map_nil, List.mem_cons, List.not_mem_nil, or_false, not_or] at h2
      simp [inertStep, h2, hb, bind, Except.bind]
    | @strings p ts h1 h2 =>
      simp only [List.map_cons, List.map_nil, List.mem_cons, List.not_mem_nil, or_false] at h1
      rcases h1 with rfl | rfl | rfl | rfl <;> simp [inertStep, hooqPath_inj, h2]
    | @target ts pre post x h1 h2 h3 =>
      have := (C29_first_unknown _ x).2 ⟨pre, post, rfl, h2, h3⟩
      simp [inertStep, hooqPath_inj, h1, this]
    | @bool ts h1 => simp [inertStep, hooqPath_inj, h1]
    | @binding p ts h1 h2 =>
      simp only [List.map_cons, List.map_nil, List.mem_cons, List.not_mem_nil, or_false] at h1
      rcases h1 with rfl | rfl <;> simp [inertStep, hooqPath_inj, h2]
    | @name p q ts v h1 h2 h3 =>
      simp only [List.map_cons, List.map_nil, List.mem_cons, List.not_mem_nil, or_false] at h1
      have : ∀ (f : String → Except Err (Inert × Bool)), (match q with
        | { leading := false, segs := [{ ident := b, hasArgs := false }] } => f b
        | _ => .error .bindingName) = .error .bindingName := by
        intro f
        split
        · rename_i b; exact absurd rfl (h3 b)
        · rfl
      rcases h1 with rfl | rfl <;> simp only [inertStep, hooqPath_inj, h2] <;> simp <;> exact this _
    | @flavor x v e h1 h2 =>
      have := flavorOfValue_err.2 h2
      simp only [List.mem_cons, List.not_mem_nil, or_false] at h1
      rcases h1 with rfl | rfl | rfl | rfl | rfl | rfl | rfl <;>
        simp [inertStep, hooqPath_inj, this, bind, Except.bind]
    | ignore => simp [inertStep, hooqPath_inj]

theorem extractFrom_err (env : Env) (acc : Inert) (attrs : List Attr) (e : Err) :
    extractFrom env acc attrs = .error e ↔ FirstAttrErr env attrs e := by
  induction attrs generalizing acc with
  | nil => simp [extractFrom, FirstAttrErr]
  | cons a rest ih =>
    simp only [extractFrom]
    constructor
    · intro h
      rcases except_bind_err h with h | ⟨⟨acc1, keep⟩, h1, h2⟩
      · exact ⟨[], a, rest, rfl, by simp, (inertStep_err ..).1 h⟩
      rcases except_bind_err h2 with h | ⟨_, _, h⟩
      · obtain ⟨pre, b, post, rfl, h3, h4⟩ := (ih acc1).1 h
        refine ⟨a :: pre, b, post, rfl, ?_, h4⟩
        have := (inertStep_ok_iff env acc a).1 ⟨_, h1⟩
        intro c hc
        rcases List.mem_cons.1 hc with rfl | hc
        · exact this
        · exact h3 c hc
      · simp at h
    · rintro ⟨pre, b, post, h1, h2, h3⟩
      cases pre with
      | nil =>
        obtain ⟨rfl, rfl⟩ := List.cons.inj h1
        simp [(inertStep_err env acc a e).2 h3, bind, Except.bind]
      | cons c pre =>
        obtain ⟨rfl, rfl⟩ := List.cons.inj h1
        obtain ⟨⟨acc1, keep⟩, h4⟩ := (inertStep_ok_iff env acc a).2 (h2 a (by simp))
        have : extractFrom env acc1 (pre ++ b :: post) = .error e :=
          (ih acc1).2 ⟨pre, b, post, rfl, fun c hc => h2 c (by simp [hc]), h3⟩
        simp [h4, this, bind, Except.bind]

theorem handle_first {env : Env} {d : Data} {c : Ctx} {e : Err} (h : d.handle env c = .error e) :
    FirstAttrErr env d.seen e := by
  simp only [Data.handle] at h
  split at h
  · rename_i h1
    rw [seen_handles h1]
    simp only [handleAttrs] at h
    rcases except_bind_err h with h | ⟨_, _, h⟩
    · exact (extractFrom_err ..).1 h
    · simp at h
  · simp at h

/-! ## Templates -/

mutual
theorem expandTT_err {r : RInfo} {soFar : Span → Except Err (List TT)} {σ : String → List TT → Prop}
    {ε : String → Span → Err → Prop} (hσ : ∀ x sp o, metaVarTokens r soFar x sp = .ok o ↔ σ x o)
    (hε : ∀ x sp e, metaVarTokens r soFar x sp = .error e ↔ ε x sp e) : ∀ (t : TT) (e : Err),
    expandTT r soFar t = .error e ↔ ∃ d ts sp, t = .group d ts sp ∧ SubstErr σ ε ts e
  | .group d ts sp, e => by
    have ih := expandList_err hσ hε ts
    simp only [expandTT]
    constructor
    · intro h
      rcases except_bind_err h with h | ⟨_, _, h⟩
      · exact ⟨d, ts, sp, rfl, (ih e).1 h⟩
      · simp at h
    · rintro ⟨d', ts', sp', h1, h2⟩
      cases h1
      rw [(ih e).2 h2]; rfl
  | .ident s sp, e => by simp [expandTT]
  | .punct s sp, e => by simp [expandTT]
  | .lit s sp, e => by simp [expandTT]
  | .exprHole sp, e => by simp [expandTT]
  | .sourceHole sp, e => by simp [expandTT]
  | .valueHole v sp, e => by simp [expandTT]
  | .bindingsHole l sp, e => by simp [expandTT]
  | .metaHole m sp, e => by simp [expandTT]

theorem expandList_err {r : RInfo} {soFar : Span → Except Err (List TT)} {σ : String → List TT → Prop}
    {ε : String → Span → Err → Prop} (hσ : ∀ x sp o, metaVarTokens r soFar x sp = .ok o ↔ σ x o)
    (hε : ∀ x sp e, metaVarTokens r soFar x sp = .error e ↔ ε x sp e) : ∀ (ts : List TT) (e : Err),
    expandList r soFar false ts = .error e ↔ SubstErr σ ε ts e
  | [], e => by
    simp only [expandList]
    exact ⟨nofun, nofun⟩
  | t :: rest, e => by
    have iht := expandTT_err hσ hε t
    have ihr := expandList_err hσ hε rest
    rw [expandList.eq_def]
    simp only [Bool.false_eq_true, if_false]
    split
    · rename_i hd
      obtain ⟨sp, rfl⟩ := (TT.isPunct_iff _ _).1 hd
      cases rest with
      | nil =>
        simp only [expandList]
        refine ⟨nofun, fun h => ?_⟩
        cases h with
        | afterTok h1 _ _ => exact absurd rfl (h1 _)
      | cons u rest =>
        have ih2 := expandList_err hσ hε rest
        rw [expandList.eq_def]
        simp only [if_true]
        constructor
        · intro h
          split at h
          · rename_i x sp'
            rcases except_bind_err h with h | ⟨o, h1, h2⟩
            · exact .var ((hε x sp' e).1 h)
            rcases except_bind_err h2 with h | ⟨_, _, h⟩
            · exact .afterVar ((hσ x sp' o).1 h1) ((ih2 e).1 h)
            · simp at h
          · rename_i hne
            simp only [Except.error.injEq] at h; subst h
            exact .after fun x sp' hx => hne x sp' hx
        · intro h
          cases h with
          | after h1 =>
            split
            · rename_i x sp'; exact absurd rfl (h1 x sp')
            · rfl
          | var h1 => simp only; rw [(hε _ _ _).2 h1]; rfl
          | afterVar h1 h2 => simp only; rw [(hσ _ _ _).2 h1, (ih2 _).2 h2]; rfl
          | afterTok h1 _ _ => exact absurd rfl (h1 _)
    · rename_i hd
      have hnd : ∀ sp, t ≠ .punct '$' sp := fun sp h => hd ((TT.isPunct_iff _ _).2 ⟨sp, h⟩)
      have ho := expandTT_iff hσ t
      constructor
      · intro h
        rcases except_bind_err h with h | ⟨t', h1, h2⟩
        · obtain ⟨d, ts, sp, rfl, h9⟩ := (iht e).1 h
          exact .inGroup h9
        rcases except_bind_err h2 with h | ⟨_, _, h⟩
        · have h9 := (ihr e).1 h
          rcases (ho t').1 h1 with ⟨d, ts, ts', sp, rfl, rfl, hs⟩ | ⟨hg, rfl⟩
          · exact .afterGroup hs h9
          · exact .afterTok hnd hg h9
        · simp at h
      · intro h
        cases h with
        | after _ => exact absurd rfl (hnd _)
        | var _ => exact absurd rfl (hnd _)
        | afterVar _ _ => exact absurd rfl (hnd _)
        | inGroup h => rw [(iht e).2 ⟨_, _, _, rfl, h⟩]; rfl
        | afterGroup hs h => rw [(ho _).2 (.inl ⟨_, _, _, _, rfl, rfl, hs⟩), (ihr e).2 h]; rfl
        | afterTok _ hg h => rw [(ho _).2 (.inr ⟨hg, rfl⟩), (ihr e).2 h]; rfl
end

theorem metaVarTokens_err {env : Env} {s : Settings} {up : List Data} {r : RInfo}
    (ha : Agrees env s up r.ctx) (hn : s.bindings.keys.Nodup) {soFar : Span → Except Err (List TT)}
    {P : Span → Err → Prop} (hs : ∀ sp e, soFar sp = .error e ↔ P sp e) (x : String) (sp : Span) (e : Err) :
    metaVarTokens r soFar x sp = .error e ↔
      VarErr (siteAt env s up r.kind r.span r.count) P x sp e := by
  have hl : ∀ l, Listing (siteAt env s up r.kind r.span r.count).binding l ↔
      l = availableBindings r.ctx.bindings := by
    have h1 := availableBindings_listing r.ctx.bindings (ha.nodup hn)
    have h2 : (fun k => AMap.get? r.ctx.bindings k)
        = (siteAt env s up r.kind r.span r.count).binding := by
      funext k; exact ha.bindings k
    rw [h2] at h1
    exact fun l => ⟨fun h => listing_unique h h1, fun h => h ▸ h1⟩
  have hb : (siteAt env s up r.kind r.span r.count).binding x = r.ctx.bindings.get? x := (ha.bindings x).symm
  constructor
  · intro h
    simp only [metaVarTokens] at h
    split at h <;> try simp at h
    · rename_i ho
      exact .soFar ((metaVar_named x _).1 ho) ((hs sp e).1 h)
    · rename_i ho
      cases hg : r.ctx.bindings.get? x with
      | some v => simp [hg] at h
      | none =>
        simp only [hg, Except.error.injEq] at h; subst h
        exact .unknown ((metaVar_none x).1 ho) (by rw [hb, hg]) ((hl _).2 rfl)
  · intro h
    cases h with
    | soFar h1 h2 => rw [metaVarTokens, (metaVar_named x _).2 h1]; exact (hs sp e).2 h2
    | unknown h1 h2 h3 =>
      rw [hb] at h2
      simp [metaVarTokens, (metaVar_none x).2 h1, h2, (hl _).1 h3]

theorem soFarOf_err {env : Env} {s : Settings} {up : List Data} {r : RInfo}
    (ha : Agrees env s up r.ctx) (hn : s.bindings.keys.Nodup) (l : List Method) (sp : Span) (e : Err) :
    soFarOf r l sp = .error e ↔ StackErr (siteAt env s up r.kind r.span r.count) l sp e := by
  induction l generalizing sp e with
  | nil => simp [soFarOf, StackErr, eq_comm]
  | cons m l ih =>
    exact expandList_err (fun x sp o => metaVarTokens_iff ha hn (fun sp o => soFarOf_iff ha hn l sp o) x sp o)
      (fun x sp e => metaVarTokens_err ha hn ih x sp e) m.template e

theorem expandMethod_err {env : Env} {s : Settings} {up : List Data} {r : RInfo}
    (ha : Agrees env s up r.ctx) (hn : s.bindings.keys.Nodup) (sp : Span) (e : Err) :
    expandMethod r = .error e ↔
      StackErr (siteAt env s up r.kind r.span r.count) (methodStack env s up) sp e := by
  rw [← ha.method]
  exact expandList_err
    (fun x sp o => metaVarTokens_iff ha hn (fun sp o => soFarOf_iff ha hn r.ctx.method.anc sp o) x sp o)
    (fun x sp e => metaVarTokens_err ha hn (fun sp e => soFarOf_err ha hn r.ctx.method.anc sp e) x sp e) _ e

theorem render_err {env : Env} {s : Settings} {up : List Data} {r : RInfo} {e : Err}
    (ha : Agrees env s up r.ctx) (hn : s.bindings.keys.Nodup) :
    render env r = .error e ↔ HookErr env s up r.kind r.span r.count r.rear e := by
  simp only [HookErr, ← expandMethod_err ha hn r.span, ← expandMethod_iff ha hn, ← ha.method_val]
  simp only [render]
  cases he : expandMethod r with
  | error e => simp [bind, Except.bind]
  | ok ts =>
    simp only [bind, Except.bind, Except.ok.injEq, exists_eq_left', Reparses, reduceCtorEq, false_or]
    cases r.ctx.method.val with
    | insert dot l exc =>
      simp only
      cases hr : r.rear <;> cases hi : env.insertRear (.punct '.' dot :: ts.map (TT.setSpan r.span)) <;>
        simp [eq_comm]
    | replace l exc =>
      simp only
      cases env.replaceShape r.rear (ts.map (TT.setSpan r.span)) <;> simp [eq_comm]

/-! ## The walk -/

theorem done_sub {env : Env} {s : Settings} {t m : RTree} {ctx : Ctx} {up0 upq : List Data}
    {c c' : Counter} {t' : RTree} {q : List Nat} (ha : Agrees env s up0 ctx)
    (h : gwalk env ctx t c = .ok (t', c')) (hm : t.sub q = some m)
    (hu : t.upFrom up0 q = some (m.data :: upq)) (hr : reached env s (m.data :: upq) = true) :
    (∀ a ∈ m.data.seen, AttrOk env a) ∧ Done env s m upq := by
  obtain ⟨n, n0, n', upn, ctx', c1, c2, g1, g2, g3, g4, g5, g6, g7, g8⟩ := gwalk_local ha h hu hr
  rw [hm] at g1
  obtain rfl := Option.some.inj g1
  obtain ⟨-, rfl⟩ := List.cons.inj g3
  refine ⟨?_, ctx', c1, n0, c2, g4, g5⟩
  obtain ⟨dn, ms, kids⟩ := m
  have hv : dn.edge.visit = true := by
    rw [reached_cons] at hr; simp only [Bool.and_eq_true] at hr; exact hr.1.1
  obtain ⟨hb, hd, kids', ck, t1, ct, h1, h2, h3, h4⟩ := gwalk_inv hv g5
  exact handle_ok_attrs h1

/-- The node and everything in it is processed. -/
def AllDone (env : Env) (s : Settings) (t : RTree) (up0 : List Data) : Prop :=
  ∀ q m upq, t.sub q = some m → t.upFrom up0 q = some (m.data :: upq) →
    reached env s (m.data :: upq) = true → (∀ a ∈ m.data.seen, AttrOk env a) ∧ Done env s m upq

theorem gwalk_allDone {env : Env} {s : Settings} {t : RTree} {ctx : Ctx} {up0 : List Data}
    {c c' : Counter} {t' : RTree} (ha : Agrees env s up0 ctx) (h : gwalk env ctx t c = .ok (t', c')) :
    AllDone env s t up0 := fun _ _ _ hm hu hr => done_sub ha h hm hu hr

theorem gwalkList_allDone {env : Env} {s : Settings} : ∀ (ts : List RTree) {ctx : Ctx} {up0 : List Data}
    {c c' : Counter} {ts' : List RTree}, Agrees env s up0 ctx → gwalkList env ctx ts c = .ok (ts', c') →
    ∀ k ∈ ts, AllDone env s k up0
  | [], _, _, _, _, _, _, _ => by simp
  | t :: ts, ctx, up0, c, c', ts', ha, h => by
    simp only [gwalkList] at h
    obtain ⟨t1, c1, h1, h⟩ := W.bind_ok h
    obtain ⟨ts1, c2, h2, h⟩ := W.bind_ok h
    intro k hk
    rcases List.mem_cons.1 hk with rfl | hk
    · exact gwalk_allDone ha h1
    · exact gwalkList_allDone ts ha h2 k hk

/-- Where the walk of siblings stops. -/
def StopsAmong (env : Env) (s : Settings) (ts : List RTree) (up0 : List Data) (e : Err) : Prop :=
  ∃ (i : Nat) (k : RTree), ts[i]? = some k ∧ (∃ p n up, StopsAt env s k up0 e p n up) ∧
    ∀ (j : Nat) k', j < i → ts[j]? = some k' → AllDone env s k' up0

theorem stopsAt_kid {env : Env} {s : Settings} {d : Data} {ms : List (HookData × RTree)}
    {kids : List RTree} {up0 : List Data} {e : Err} (h : StopsAmong env s kids (d :: up0) e)
    (hattr : ∀ a ∈ d.seen, AttrOk env a) : ∃ p n up, StopsAt env s (.mk d ms kids) up0 e p n up := by
  obtain ⟨i, k, hk, ⟨p, n, up, hs⟩, hl⟩ := h
  refine ⟨i :: p, n, up, by simp [RTree.sub, hk, hs.sub], by simp [RTree.upFrom, hk, hs.over], hs.reach,
    hs.error, fun q m upq hm hu hr hp => ?_⟩
  cases q with
  | nil =>
    simp [RTree.sub] at hm; subst hm
    exact ⟨hattr, fun hq => absurd (List.nil_prefix) hq⟩
  | cons j q =>
    cases hj : kids[j]? with
    | none => simp [RTree.sub, hj] at hm
    | some k' =>
      simp only [RTree.sub, hj, RTree.upFrom] at hm hu
      rcases hp with hp | ⟨rfl, hp⟩
      · obtain ⟨h1, h2⟩ := hl j k' hp hj q m upq hm hu hr
        exact ⟨h1, fun _ => h2⟩
      · rw [hk] at hj
        obtain rfl := Option.some.inj hj
        obtain ⟨h1, h2⟩ := hs.before q m upq hm hu hr hp
        exact ⟨h1, fun hq => h2 fun hq' => hq (by simpa using hq')⟩

mutual

theorem gwalk_first {env : Env} {s : Settings} (hn : s.bindings.keys.Nodup) :
    ∀ (t : RTree) {ctx : Ctx} {up0 : List Data} {c : Counter} {e : Err},
    (∀ p n, t.sub p = some n → n.built = false) → t.WF → Agrees env s up0 ctx →
    (t.data.edge.visit = true → reached env s (t.data :: up0) = true) →
    gwalk env ctx t c = .error e → ∃ p n up, StopsAt env s t up0 e p n up
  | .mk d ms kids, ctx, up0, c, e, hsrc, hwf, ha, hr, h => by
    have ih := @gwalkList_first env s hn kids
    rw [gwalk] at h
    split at h
    rotate_left
    · exact (W.pure_err h).elim
    rename_i hv
    have hr := hr hv
    have hb : (RTree.mk d ms kids).built = false := hsrc [] _ (by simp [RTree.sub])
    rw [hb] at h
    simp only [Bool.false_eq_true, if_false] at h
    have hbefore : ∀ q m upq, (RTree.mk d ms kids).sub q = some m →
        (RTree.mk d ms kids).upFrom up0 q = some (m.data :: upq) →
        reached env s (m.data :: upq) = true → Precedes q [] →
        (∀ a ∈ m.data.seen, AttrOk env a) ∧ (¬ q <+: [] → Done env s m upq) := by
      intro q m upq _ _ _ hp
      cases q <;> exact hp.elim
    rcases W.bind_err h with h | ⟨hd, c1, h0, hA⟩
    · exact ⟨[], _, up0, by simp [RTree.sub], by simp [RTree.upFrom], hr, .inl (handle_first (W.lift_err h)),
        hbefore⟩
    obtain ⟨h1, hc1⟩ := W.lift_inv h0
    subst hc1
    have ha' := agrees_step ha h1
    obtain ⟨hkept, hskip⟩ := handle_kept h1
    have hattr := handle_ok_attrs h1
    rcases W.bind_err hA with h | ⟨kids', c2, h2, hB⟩
    · simp only [gopen] at h
      split at h
      · rename_i hop
        refine stopsAt_kid (ih (fun i k hk p n hp => hsrc (i :: p) n (by simp [RTree.sub, hk, hp]))
          hwf.2 ha' (fun k hvk => by
            rw [reached_cons, hvk]
            rw [RTree.data_mk] at hr
            rw [hr]
            simp only [Data.opens] at hop
            rw [ha'.hookInMacros] at hop
            simp only [Bool.true_and, Bool.and_true, Bool.or_eq_true, bne_iff_ne]
            by_cases hm : d.tag = .mac
            · simp only [hm] at hop; exact .inr hop
            · exact .inl hm) h) hattr
      · exact (W.pure_err h).elim
    have hparts : ∀ q m upq, q ≠ [] → (RTree.mk d ms kids).sub q = some m →
        (RTree.mk d ms kids).upFrom up0 q = some (m.data :: upq) →
        reached env s (m.data :: upq) = true → Done env s m upq := by
      intro q m upq hq hm hu hrq
      cases q with
      | nil => exact absurd rfl hq
      | cons i q =>
        cases hk : kids[i]? with
        | none => simp [RTree.sub, hk] at hm
        | some k =>
          simp only [RTree.sub, hk, RTree.upFrom] at hm hu
          obtain ⟨l2, hl2⟩ := upFrom_suffix hu
          have hopen : d.opens hd.ctx = true := by
            have := reached_suffix l2 (k.data :: d :: up0) (by rw [hl2] at hrq; exact hrq)
            rw [reached_cons] at this; simp only [Bool.and_eq_true] at this
            have hm := this.1.2
            simp only [Data.opens]
            split
            · rename_i ht
              rw [ht] at hm
              rw [ha'.hookInMacros]
              simpa using hm
            · rfl
          rw [hopen] at h2
          simp only [gopen, if_true] at h2
          exact (gwalkList_allDone kids ha' h2 k (List.mem_of_getElem? hk) q m upq hm hu hrq).2
    have here : HookFails env s (.mk d ms kids) up0 e →
        ∃ p n up, StopsAt env s (.mk d ms kids) up0 e p n up := fun hf =>
      ⟨[], _, up0, by simp [RTree.sub], by simp [RTree.upFrom], hr, .inr ⟨hattr, hf, hparts⟩, hbefore⟩
    rcases W.bind_err hB with h | ⟨t1, c3, h3, h⟩
    · rcases gtarget_err h with ⟨q, b, hq, h4, h5⟩ | ⟨hq, k1, ks1, rfl, hrule, h4, h5⟩
      · have hbf : b = false := by
          cases b with
          | false => rfl
          | true => simp [RTree.built, hq] at hb
        subst hbf
        rw [has_eq ha' hskip] at h4
        have hopen : d.opens hd.ctx = true := by simp [Data.opens, hq]
        rw [hopen] at h2
        simp only [gopen, if_true] at h2
        obtain ⟨k, rfl, he⟩ : ∃ k, kids = [k] ∧ k.data.edge = {} := by
          have := hwf.1; simp only [nodeOk, hq] at this; exact this.1
        simp only [gwalkList] at h2
        obtain ⟨k2, ck2, hk2, h2⟩ := W.bind_ok h2
        simp only [pure_bind] at h2
        obtain ⟨rfl, rfl⟩ := W.pure_ok h2
        exact here (.question q ((ck2.countUp .question).get .question) k k2 hd.ctx _ _ hq rfl hk2 h4
          ((render_err (r := ⟨hd.ctx, .question, _, q, _⟩) ha' hn).1 h5))
      · rw [has_eq ha' hskip] at h4
        rw [retRule_eq ha'] at hrule
        have hopen : d.opens hd.ctx = true := by simp [Data.opens, hq]
        rw [hopen] at h2
        simp only [gopen, if_true] at h2
        have hnode := hwf.1
        simp only [nodeOk, hq] at hnode
        rcases hnode with rfl | ⟨k, rfl, he⟩
        · simp only [gwalkList] at h2
          have := (W.pure_ok h2).1
          cases this
        · simp only [gwalkList] at h2
          obtain ⟨k2, ck2, hk2, h2⟩ := W.bind_ok h2
          simp only [pure_bind] at h2
          obtain ⟨h6, h7⟩ := W.pure_ok h2
          subst h7
          obtain ⟨rfl, rfl⟩ := List.cons.inj h6
          exact here (.ret ((ck2.countUp .ret).get .ret) k k2 hd.ctx _ _ hq rfl hk2 hrule h4
            ((render_err (r := ⟨hd.ctx, .ret, _, d.span, _⟩) ha' hn).1 h5))
    · obtain ⟨tk, htk, hm, hrule, h4, h5⟩ := gtail_err h
      rw [has_eq ha' hskip] at h4
      rw [tailRule_eq ha'] at hrule
      exact here (.tail tk ((c3.countUp .tail).get .tail) t1 htk hm ⟨hd, kids', _, _, _, h2, h3⟩ hrule h4
        ((render_err (r := ⟨hd.ctx, .tail, _, t1.start, _⟩) ha' hn).1 h5))

theorem gwalkList_first {env : Env} {s : Settings} (hn : s.bindings.keys.Nodup) :
    ∀ (ts : List RTree) {ctx : Ctx} {up0 : List Data} {c : Counter} {e : Err},
    (∀ (i : Nat) k, ts[i]? = some k → ∀ p n, k.sub p = some n → n.built = false) → WFList ts →
    Agrees env s up0 ctx →
    (∀ k : RTree, k.data.edge.visit = true → reached env s (k.data :: up0) = true) →
    gwalkList env ctx ts c = .error e → StopsAmong env s ts up0 e
  | [], ctx, up0, c, e, hsrc, hwf, ha, hr, h => by
    simp only [gwalkList] at h
    exact (W.pure_err h).elim
  | t :: ts, ctx, up0, c, e, hsrc, hwf, ha, hr, h => by
    have h1 := @gwalk_first env s hn t
    have h2 := @gwalkList_first env s hn ts
    simp only [gwalkList] at h
    rcases W.bind_err h with h | ⟨t', c1, ht, h⟩
    · exact ⟨0, t, rfl, h1 (hsrc 0 t rfl) hwf.1 ha (hr t) h, fun j _ hj => absurd hj (by omega)⟩
    · rcases W.bind_err h with h | ⟨ts', c2, -, h⟩
      · obtain ⟨i, k, hk, hs, hl⟩ := h2 (fun i k hk => hsrc (i + 1) k (by simpa using hk)) hwf.2 ha hr h
        refine ⟨i + 1, k, by simpa using hk, hs, fun j k' hj hk' => ?_⟩
        cases j with
        | zero => simp at hk'; subst hk'; exact gwalk_allDone ha ht
        | succ j => exact hl j k' (by omega) (by simpa using hk')
      · exact (W.pure_err h).elim

end

end Hooq
