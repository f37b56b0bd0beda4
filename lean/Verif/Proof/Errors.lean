import Verif.Spec.Errors
import Verif.Proof.Targets
import Verif.Proof.AttrForm
import Verif.Proof.Nodes

/-!
# Where errors come from
-/

namespace Hooq

theorem W.bind_err {α β : Type} {x : W α} {f : α → W β} {c : Counter} {e : Err}
    (h : (x >>= f) c = .error e) :
    x c = .error e ∨ ∃ a c1, x c = .ok (a, c1) ∧ f a c1 = .error e := by
  simp only [Bind.bind, StateT.bind] at h
  cases hx : x c with
  | error e' => simp [hx, Except.bind] at h; exact .inl (by rw [h])
  | ok r => exact .inr ⟨r.1, r.2, rfl, by simpa [hx, Except.bind] using h⟩

theorem W.pure_err {α : Type} {a : α} {c : Counter} {e : Err} (h : (pure a : W α) c = .error e) :
    False := by
  simp [Pure.pure, StateT.pure, Except.pure] at h

theorem W.lift_err {α : Type} {x : Except Err α} {c : Counter} {e : Err}
    (h : W.lift x c = .error e) : x = .error e := by
  cases x with
  | error e' => simpa [W.lift, Except.map] using h
  | ok r => simp [W.lift, Except.map] at h

theorem hookExpr_err {env : Env} {ap : Bool} {k : Kind} {sp : Span} {rear : Rear} {ctx : Ctx}
    {c : Counter} {e : Err} (h : hookExpr env ap k sp rear ctx c = .error e) :
    (ap && ctx.targets.has k) = true ∧
      render env { ctx := ctx, kind := k, count := (c.countUp k).get k, span := sp, rear := rear }
        = .error e := by
  simp only [hookExpr] at h
  split at h
  · rename_i h1
    split at h
    · rename_i h2
      refine ⟨by simp [h1, h2], ?_⟩
      cases hr : render env { ctx := ctx, kind := k, count := (c.countUp k).get k, span := sp, rear := rear } with
      | error e' => simpa [hr, Except.map] using h
      | ok hk => simp [hr, Except.map] at h
    · simp at h
  · simp at h

/-- A hook is built exactly when the template expands and re-parses. -/
theorem render_ok_iff {env : Env} {s : Settings} {up : List Data} {r : RInfo}
    (ha : Agrees env s up r.ctx) (hn : s.bindings.keys.Nodup) :
    (∃ hk, render env r = .ok hk) ↔ CanHook env s up r.kind r.span r.count r.rear := by
  simp only [CanHook, ← expandMethod_iff ha hn, ← ha.method_val]
  simp only [render]
  cases he : expandMethod r with
  | error e => simp [bind, Except.bind]
  | ok ts =>
    simp only [bind, Except.bind, Except.ok.injEq, exists_eq_left', Reparses]
    cases r.ctx.method.val with
    | insert dot l exc =>
      simp only
      cases hr : r.rear <;> cases hi : env.insertRear (.punct '.' dot :: ts.map (TT.setSpan r.span)) <;> simp
    | replace l exc =>
      simp only
      cases env.replaceShape r.rear (ts.map (TT.setSpan r.span)) <;> simp

theorem handle_err {env : Env} {d : Data} {c : Ctx} {e : Err} (h : d.handle env c = .error e) :
    ∃ a ∈ d.seen, ¬ AttrOk env a := by
  simp only [Data.handle] at h
  split at h
  · rename_i h1
    rw [seen_handles h1]
    by_contra hn
    push Not at hn
    obtain ⟨r, hr⟩ := (extractFrom_ok_iff env {} d.attrs).2 hn
    have hr' : extract env d.attrs = .ok r := hr
    simp [handleAttrs, hr', bind, Except.bind] at h
  · simp at h

theorem handle_ok_attrs {env : Env} {d : Data} {c : Ctx} {hd : Handled} (h : d.handle env c = .ok hd) :
    ∀ a ∈ d.seen, AttrOk env a := by
  simp only [Data.handle] at h
  split at h
  · rename_i h1
    rw [seen_handles h1]
    obtain ⟨i, kept, h2, -⟩ := handleAttrs_ok h
    exact (extractFrom_ok_iff env {} d.attrs).1 ⟨_, h2⟩
  · rename_i h1
    rw [seen_not_handles (by simpa using h1)]
    simp

theorem gtarget_err {env : Env} {h : Handled} {d : Data} {kids kids' : List RTree} {c : Counter}
    {e : Err} (hg : gtarget env h d kids kids' c = .error e) :
    (∃ q b, d.tag = .question q b ∧ (!h.isSkipped && h.ctx.targets.has .question) = true ∧
      render env { ctx := h.ctx, kind := .question, count := (c.countUp .question).get .question,
                   span := q, rear := RTree.rearHead kids' } = .error e) ∨
    (d.tag = .ret ∧ ∃ k ks, kids' = k :: ks ∧ retRule h.ctx k.callee = true ∧
      (!h.isSkipped && h.ctx.targets.has .ret) = true ∧
      render env { ctx := h.ctx, kind := .ret, count := (c.countUp .ret).get .ret,
                   span := d.span, rear := k.rear } = .error e) := by
  simp only [gtarget] at hg
  cases htag : d.tag with
  | question q b =>
    simp only [htag] at hg
    rcases W.bind_err hg with hg | ⟨o, c3, -, hg⟩
    · exact .inl ⟨q, b, rfl, hookExpr_err hg⟩
    · exfalso
      cases o with
      | none => exact W.pure_err hg
      | some hk =>
        cases hx : hk.exc <;> simp only [hx, Bool.false_eq_true, if_true, if_false] at hg <;>
          exact W.pure_err hg
  | ret =>
    simp only [htag] at hg
    cases kids' with
    | nil => exact (W.pure_err hg).elim
    | cons k ks =>
      cases hrule : retRule h.ctx k.callee with
      | false =>
        simp only [hrule, Bool.false_eq_true, if_false] at hg
        exact (W.pure_err hg).elim
      | true =>
        simp only [hrule, if_true] at hg
        rcases W.bind_err hg with hg | ⟨o, c3, -, hg⟩
        · exact .inr ⟨rfl, k, ks, rfl, hrule, hookExpr_err hg⟩
        · exfalso
          cases o <;> exact W.pure_err hg
  | _ =>
    simp only [htag] at hg
    exact (W.pure_err hg).elim

theorem gtail_err {env : Env} {h : Handled} {d : Data} {kids : List RTree} {t : RTree} {c : Counter}
    {e : Err} (hg : gtail env h d kids t c = .error e) :
    ∃ tk, d.edge.tail = some tk ∧ d.mode ≠ .untouched ∧ tailRule h.ctx tk t.callee = true ∧
      (!h.isSkipped && h.ctx.targets.has .tail) = true ∧
      render env { ctx := h.ctx, kind := .tail, count := (c.countUp .tail).get .tail,
                   span := t.start, rear := t.rear } = .error e := by
  simp only [gtail] at hg
  cases htl : d.edge.tail with
  | none => simp only [htl] at hg; exact (W.pure_err hg).elim
  | some tk =>
    simp only [htl] at hg
    by_cases hm : d.mode = .untouched
    · simp only [hm, if_true] at hg; exact (W.pure_err hg).elim
    simp only [hm, if_false] at hg
    cases hrule : tailRule h.ctx tk t.callee with
    | false =>
      simp only [hrule, Bool.false_eq_true, if_false] at hg
      exact (W.pure_err hg).elim
    | true =>
      simp only [hrule, if_true] at hg
      rcases W.bind_err hg with hg | ⟨o, c3, -, hg⟩
      · exact ⟨tk, rfl, hm, hrule, hookExpr_err hg⟩
      · exfalso
        cases o <;> exact W.pure_err hg

/-- Where the walk stopped. -/
def StopsIn (env : Env) (s : Settings) (t : RTree) (up0 : List Data) : Prop :=
  ∃ p n up, t.sub p = some n ∧ t.upFrom up0 p = some (n.data :: up) ∧
    reached env s (n.data :: up) = true ∧ Fails env s n up

theorem stops_kid {env : Env} {s : Settings} {d : Data} {ms : List (HookData × RTree)}
    {kids : List RTree} {up0 : List Data} {i : Nat} {k : RTree} (hk : kids[i]? = some k)
    (h : StopsIn env s k (d :: up0)) : StopsIn env s (.mk d ms kids) up0 := by
  obtain ⟨p, n, up, h1, h2, h3⟩ := h
  exact ⟨i :: p, n, up, by simp [RTree.sub, hk, h1], by simp [RTree.upFrom, hk, h2], h3⟩

mutual

theorem gwalk_err {env : Env} {s : Settings} (hn : s.bindings.keys.Nodup) :
    ∀ (t : RTree) {ctx : Ctx} {up0 : List Data} {c : Counter} {e : Err},
    (∀ p n, t.sub p = some n → n.built = false) → t.WF → Agrees env s up0 ctx →
    (t.data.edge.visit = true → reached env s (t.data :: up0) = true) →
    gwalk env ctx t c = .error e → StopsIn env s t up0
  | .mk d ms kids, ctx, up0, c, e, hsrc, hwf, ha, hr, h => by
    have ih := @gwalkList_err env s hn kids
    rw [gwalk] at h
    split at h
    rotate_left
    · exact (W.pure_err h).elim
    rename_i hv
    have hr := hr hv
    have hb : (RTree.mk d ms kids).built = false := hsrc [] _ (by simp [RTree.sub])
    have here : Fails env s (.mk d ms kids) up0 → StopsIn env s (.mk d ms kids) up0 := fun hf =>
      ⟨[], _, up0, by simp [RTree.sub], by simp [RTree.upFrom], hr, hf⟩
    rw [hb] at h
    simp only [Bool.false_eq_true, if_false] at h
    rcases W.bind_err h with h | ⟨hd, c1, h0, hA⟩
    · obtain ⟨a, h1, h2⟩ := handle_err (W.lift_err h)
      exact here (.attr a h1 h2)
    obtain ⟨h1, hc1⟩ := W.lift_inv h0
    subst hc1
    have ha' := agrees_step ha h1
    obtain ⟨hkept, hskip⟩ := handle_kept h1
    rcases W.bind_err hA with h | ⟨kids', c2, h2, hB⟩
    · simp only [gopen] at h
      split at h
      · rename_i hop
        obtain ⟨i, k, hk, hs⟩ := ih (fun i k hk p n hp => hsrc (i :: p) n (by simp [RTree.sub, hk, hp]))
          hwf.2 ha' (fun k hvk => by
            rw [reached_cons, hvk]
            rw [RTree.data_mk] at hr
            rw [hr]
            simp only [Data.opens] at hop
            rw [ha'.hookInMacros] at hop
            simp only [Bool.true_and, Bool.and_true, Bool.or_eq_true, bne_iff_ne]
            by_cases hm : d.tag = .mac
            · simp only [hm] at hop; exact .inr hop
            · exact .inl hm) h
        exact stops_kid hk hs
      · exact (W.pure_err h).elim
    rcases W.bind_err hB with h | ⟨t1, c3, h3, h⟩
    · rcases gtarget_err h with ⟨q, b, hq, h4, h5⟩ | ⟨hq, k1, ks1, rfl, hrule, h4, h5⟩
      · have hbf : b = false := by
          cases b with
          | false => rfl
          | true => simp [RTree.built, hq] at hb
        subst hbf
        rw [has_eq ha' hskip] at h4
        have hopen : d.opens hd.ctx = true := by simp [Data.opens, hq]
        rw [hopen] at h2
        simp only [gopen, if_true] at h2
        obtain ⟨k, rfl, he⟩ : ∃ k, kids = [k] ∧ k.data.edge = {} := by
          have := hwf.1; simp only [nodeOk, hq] at this; exact this.1
        simp only [gwalkList] at h2
        obtain ⟨k2, ck2, hk2, h2⟩ := W.bind_ok h2
        simp only [pure_bind] at h2
        obtain ⟨rfl, rfl⟩ := W.pure_ok h2
        refine here (.question q ((ck2.countUp .question).get .question) k k2 hd.ctx _ _ hq rfl hk2 h4 fun hc => ?_)
        obtain ⟨hk, hk2⟩ := (render_ok_iff (r := ⟨hd.ctx, .question, _, q, _⟩) ha' hn).2 hc
        simp only [RTree.rearHead] at h5
        exact nomatch h5.symm.trans hk2
      · rw [has_eq ha' hskip] at h4
        rw [retRule_eq ha'] at hrule
        have hopen : d.opens hd.ctx = true := by simp [Data.opens, hq]
        rw [hopen] at h2
        simp only [gopen, if_true] at h2
        have hnode := hwf.1
        simp only [nodeOk, hq] at hnode
        rcases hnode with rfl | ⟨k, rfl, he⟩
        · simp only [gwalkList] at h2
          have := (W.pure_ok h2).1
          cases this
        · simp only [gwalkList] at h2
          obtain ⟨k2, ck2, hk2, h2⟩ := W.bind_ok h2
          simp only [pure_bind] at h2
          obtain ⟨h6, h7⟩ := W.pure_ok h2
          subst h7
          obtain ⟨rfl, rfl⟩ := List.cons.inj h6
          refine here (.ret ((ck2.countUp .ret).get .ret) k k2 hd.ctx _ _ hq rfl hk2 hrule h4 fun hc => ?_)
          obtain ⟨hk, hk2⟩ := (render_ok_iff (r := ⟨hd.ctx, .ret, _, d.span, _⟩) ha' hn).2 hc
          exact nomatch h5.symm.trans hk2
    · obtain ⟨tk, htk, hm, hrule, h4, h5⟩ := gtail_err h
      rw [has_eq ha' hskip] at h4
      rw [tailRule_eq ha'] at hrule
      refine here (.tail tk ((c3.countUp .tail).get .tail) t1 htk hm ⟨hd, kids', _, _, _, h2, h3⟩ hrule h4 fun hc => ?_)
      obtain ⟨hk, hk2⟩ := (render_ok_iff (r := ⟨hd.ctx, .tail, _, t1.start, _⟩) ha' hn).2 hc
      exact nomatch h5.symm.trans hk2

theorem gwalkList_err {env : Env} {s : Settings} (hn : s.bindings.keys.Nodup) :
    ∀ (ts : List RTree) {ctx : Ctx} {up0 : List Data} {c : Counter} {e : Err},
    (∀ (i : Nat) k, ts[i]? = some k → ∀ p n, k.sub p = some n → n.built = false) → WFList ts →
    Agrees env s up0 ctx →
    (∀ k : RTree, k.data.edge.visit = true → reached env s (k.data :: up0) = true) →
    gwalkList env ctx ts c = .error e → ∃ (i : Nat) (k : RTree), ts[i]? = some k ∧ StopsIn env s k up0
  | [], ctx, up0, c, e, hsrc, hwf, ha, hr, h => by
    simp only [gwalkList] at h
    exact (W.pure_err h).elim
  | t :: ts, ctx, up0, c, e, hsrc, hwf, ha, hr, h => by
    have h1 := @gwalk_err env s hn t
    have h2 := @gwalkList_err env s hn ts
    simp only [gwalkList] at h
    rcases W.bind_err h with h | ⟨t', c1, -, h⟩
    · exact ⟨0, t, rfl, h1 (hsrc 0 t rfl) hwf.1 ha (hr t) h⟩
    · rcases W.bind_err h with h | ⟨ts', c2, -, h⟩
      · obtain ⟨i, k, hk, hs⟩ := h2 (fun i k hk => hsrc (i + 1) k (by simpa using hk)) hwf.2 ha hr h
        exact ⟨i + 1, k, by simpa using hk, hs⟩
      · exact (W.pure_err h).elim

end

end Hooq
