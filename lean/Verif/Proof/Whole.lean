import Verif.Proof.Always
import Verif.Proof.Start

/-!
# What a hook applies to
-/

namespace Hooq

/-- The method texts end like method calls or other closed expressions.  In insert mode
the text after the operand is a chain of postfix operators (not `.a() + b`), in replace
mode the text is `$expr` itself, a path, a call or anything else that takes postfix
operators as a whole. -/
structure Tidy (env : Env) : Prop where
  insert : ∀ ts re, env.insertRear ts = some re → re = .whole
  replace : ∀ r ts re, env.replaceShape r ts = some (.other re) → re = .whole

/-- `e?` and its operand take postfix operators as a whole, as `C50_question_operand`
shows for everything a parser can read. -/
def Parsed (t : RTree) : Prop :=
  ∀ p n q b, t.sub p = some n → n.data.tag = .question q b →
    n.rear = .whole ∧ ∀ k ∈ n.kids, k.rear = .whole

theorem Parsed.kid {d : Data} {ms : List (HookData × RTree)} {ks : List RTree}
    (h : Parsed (.mk d ms ks)) {k : RTree} (hk : k ∈ ks) : Parsed k := by
  obtain ⟨i, hi⟩ := List.mem_iff_getElem?.1 hk
  exact fun p n q b hp => h (i :: p) n q b (by simp [RTree.sub, hi, hp])

theorem render_whole {env : Env} (ht : Tidy env) {r : RInfo} {hk : HookData}
    (h : render env r = .ok hk) : hookRear r.rear hk = r.rear ∨ hookRear r.rear hk = .whole := by
  simp only [render] at h
  obtain ⟨ts, h1, h⟩ := except_bind_ok h
  split at h
  · split at h
    · simp at h
    · simp at h
    · rename_i re _ hre
      have := ht.insert _ _ (by assumption)
      subst this
      obtain rfl := Except.ok.inj h
      simp [hookRear]
  · split at h
    · rename_i sh hsh
      obtain rfl := Except.ok.inj h
      cases sh with
      | other re => exact .inr (ht.replace _ _ _ hsh)
      | _ => simp [hookRear]
    · simp at h

/-- Hooks can only close an end. -/
def RearUp (t t' : RTree) : Prop := t.rear ≠ .stuck → t'.rear = t.rear ∨ t'.rear = .whole

theorem RearUp.keeps {t t' : RTree} (h : RearUp t t') : KeepsRear t t' := by
  intro hs
  rcases h hs with e | e <;> rw [e]
  · exact hs
  · simp

theorem rear_bare {t : RTree} (h : t.marks = []) : t.bare.rear = t.rear := by
  obtain ⟨d, ms, ks⟩ := t
  simp only [RTree.marks] at h
  subst h
  rfl

/-- A node keeps its end if its tag and rule stay and its children keep theirs. -/
theorem rear_same {d d' : Data} {ms : List (HookData × RTree)} {ks ks' : List RTree}
    (hb : (RTree.mk d ms ks).built = false) (ht : d'.tag = d.tag) (hr : d'.rear = d.rear)
    (h : List.Forall₂ KeepsRear ks ks') (hs : (RTree.mk d ms ks).rear ≠ .stuck) :
    (RTree.mk d' [] ks').rear = (RTree.mk d ms ks).rear := by
  simp only [RTree.built, Bool.or_eq_false_iff] at hb
  obtain ⟨hb1, hb2⟩ := hb
  have hms : ms = [] := by simpa using hb1
  subst hms
  have key : ∀ l : List RTree, (RTree.mk d [] l).rear = (match d.rear with
      | .closed => .whole
      | .last => (RTree.rearLast l).inner
      | .stuck => .stuck) := by
    intro l
    simp only [RTree.rear, List.map_nil, List.foldl_nil]
    split
    · rename_i e1; simp [e1] at hb2
    all_goals (rename_i e1 _; simp only [e1])
  have key2 : (RTree.mk d' [] ks').rear = (RTree.mk d [] ks').rear := by
    simp only [RTree.rear, ht, hr]
  rw [key2]
  rw [key] at hs ⊢
  rw [key]
  cases hc : d.rear with
  | last =>
    simp only [hc] at hs ⊢
    rw [inner_stuck] at hs
    have h2 := rearLast_keeps h hs
    cases ha : RTree.rearLast ks <;> cases hb : RTree.rearLast ks' <;> simp_all [Rear.inner]
  | _ => rfl

theorem forall₂_of_list {env : Env} {ctx : Ctx} {ks ks' : List RTree} {c c' : Counter} {R : RTree → RTree → Prop}
    (h : gwalkList env ctx ks c = .ok (ks', c'))
    (hR : ∀ k ∈ ks, ∀ k' c1 c2, gwalk env ctx k c1 = .ok (k', c2) → R k k') :
    List.Forall₂ R ks ks' := by
  induction ks generalizing ks' c c' with
  | nil => simp only [gwalkList] at h; obtain ⟨rfl, -⟩ := W.pure_ok h; exact .nil
  | cons k ks ih =>
    simp only [gwalkList] at h
    obtain ⟨k', c1, h1, h⟩ := W.bind_ok h
    obtain ⟨ks2, c2, h2, h⟩ := W.bind_ok h
    obtain ⟨rfl, -⟩ := W.pure_ok h
    exact .cons (hR k (by simp) _ _ _ h1) (ih h2 fun x hx => hR x (by simp [hx]))

theorem whole_or_ne {a b : Rear} (h : b = a ∨ b = .whole) (ha : a ≠ .stuck) : b ≠ .stuck := by
  rcases h with rfl | rfl
  · exact ha
  · simp

theorem markHead_keeps {env : Env} (hy : Tidy env) {r : RInfo} {hk : HookData} (hrn : render env r = .ok hk)
    {ks ks' : List RTree} (h : List.Forall₂ KeepsRear ks ks') (hr : ks' ≠ [] → r.rear = RTree.rearHead ks')
    {src : RTree} : List.Forall₂ KeepsRear ks (markHead (hk, src) ks') := by
  cases h with
  | nil => exact .nil
  | cons h1 h2 =>
    refine .cons (fun hs => ?_) h2
    rw [rear_addMark_hook]
    have := hr (by simp)
    simp only [RTree.rearHead] at this
    exact whole_or_ne (this ▸ render_whole hy hrn) (h1 hs)

mutual
/-- Walking keeps the end of an expression, up to hooks on the expression itself. -/
theorem gwalk_ends {env : Env} (hy : Tidy env) : ∀ (t : RTree) ⦃t' : RTree⦄ ⦃ctx : Ctx⦄ ⦃c c' : Counter⦄,
    t.WF → Parsed t → t.data.edge.visit = true → gwalk env ctx t c = .ok (t', c') → t.rear ≠ .stuck →
    t'.bare.rear = t.rear ∧ (t'.rear = t.rear ∨ t'.rear = .whole)
  | .mk d ms kids, t', ctx, c, c', hwf, hp, hv, h, hs => by
    have ih := gwalkList_ends hy kids
    obtain ⟨hb, hd, kids', ck, t1, ct, h1, h2, h3, h4⟩ := gwalk_inv hv h
    have ho := gtarget_inv h3
    have hg := gtail_inv h4
    have hup : List.Forall₂ RearUp kids kids' := by
      simp only [gopen] at h2
      split at h2
      · refine forall₂_of_list h2 fun k hk k' c1 c2 hw => ?_
        rcases Bool.eq_false_or_eq_true k.data.edge.visit with hkv | hkv
        · obtain ⟨i, hi⟩ := List.mem_iff_getElem?.1 hk
          exact fun hks => (ih k hk (WFList_get hwf.2 hi) (hp.kid hk) hkv hw hks).2
        · rw [(gwalk_visit_false hkv hw).1]; exact fun _ => .inl rfl
      · obtain ⟨rfl, -⟩ := W.pure_ok h2
        exact List.forall₂_same.2 fun _ _ _ => .inl rfl
    have hkids : List.Forall₂ KeepsRear kids kids' := hup.imp fun _ _ h => h.keeps
    have e1 : t1.rear = (RTree.mk d ms kids).rear := by
      have hm1 := ho.marks
      have hr1 := ho.rear
      obtain ⟨d1, m1, ks1⟩ := t1
      simp only [RTree.marks_mk] at hm1
      subst hm1
      simp only [RTree.data_mk] at hr1
      cases htag : d.tag with
      | question q b =>
        obtain ⟨hw1, hw2⟩ := hp [] _ q b rfl htag
        have := ho.question q b htag
        split at this
        · obtain ⟨hk, -, hrn, hkk, htt⟩ := this
          simp only [RTree.data_mk, RTree.kids_mk] at htt hkk
          split at htt
          · rw [hw1]
            simp only [RTree.rear, List.map_nil, List.foldl_nil, htt.1, hkk]
            have hnode := hwf.1
            simp only [nodeOk, htag] at hnode
            obtain ⟨⟨k, rfl, -⟩, -⟩ := hnode
            obtain ⟨k', ks', hkk', hnil, rfl⟩ := List.forall₂_cons_left_iff.1 hup
            obtain rfl := List.forall₂_nil_left_iff.1 hnil
            have hkw := hw2 k (by simp)
            have hk'w : k'.rear = .whole := by
              rcases hkk' (by rw [hkw]; simp) with e | e
              · rw [e, hkw]
              · exact e
            simp only [markHead, RTree.rearLast, rear_addMark_hook]
            have := render_whole hy hrn
            simpa [RTree.rearHead, hk'w] using this
          · subst hkk
            exact rear_same hb htt.1 hr1 (markHead_keeps hy hrn hkids fun _ => rfl) hs
        · simp only [RTree.data_mk, RTree.kids_mk] at this
          obtain ⟨-, rfl, ht, -⟩ := this
          exact rear_same hb ht hr1 hkids hs
      | ret =>
        obtain ⟨ht, -, this⟩ := ho.ret htag
        simp only [RTree.data_mk, RTree.kids_mk] at this ht
        refine rear_same hb (by rw [ht, htag]) hr1 ?_ hs
        split at this
        · rw [this.1]; exact hkids
        · split at this
          · split at this
            · obtain ⟨hk, -, hrn, hkk⟩ := this
              rw [hkk]; exact markHead_keeps hy hrn hkids fun _ => rfl
            · rw [this.2]; exact hkids
          · rw [this.1]; exact hkids
      | call => obtain ⟨ht, -, hk, -⟩ := ho.other (by simp [htag]) (by simp [htag])
                simp only [RTree.data_mk, RTree.kids_mk] at ht hk
                subst hk; exact rear_same hb ht hr1 hkids hs
      | path p => obtain ⟨ht, -, hk, -⟩ := ho.other (by simp [htag]) (by simp [htag])
                  simp only [RTree.data_mk, RTree.kids_mk] at ht hk
                  subst hk; exact rear_same hb ht hr1 hkids hs
      | mac => obtain ⟨ht, -, hk, -⟩ := ho.other (by simp [htag]) (by simp [htag])
               simp only [RTree.data_mk, RTree.kids_mk] at ht hk
               subst hk; exact rear_same hb ht hr1 hkids hs
      | other l => obtain ⟨ht, -, hk, -⟩ := ho.other (by simp [htag]) (by simp [htag])
                   simp only [RTree.data_mk, RTree.kids_mk] at ht hk
                   subst hk; exact rear_same hb ht hr1 hkids hs
    obtain ⟨g1, g2, g3⟩ := hg
    have e2 : t'.bare.rear = t1.rear := by
      have hm := ho.marks
      obtain ⟨da, ma, ka⟩ := t'
      obtain ⟨db, mb, kb⟩ := t1
      simp only [RTree.data_mk, RTree.kids_mk, RTree.marks_mk] at g1 g2 hm
      subst g1 g2 hm
      rfl
    refine ⟨e2.trans e1, ?_⟩
    have e3 : t' = t1 ∨ ∃ hk src, t' = t1.addMark (hk, src) ∧
        (hookRear t1.rear hk = t1.rear ∨ hookRear t1.rear hk = .whole) := by
      split at g3
      · exact .inl g3.1
      · split at g3
        · split at g3
          · obtain ⟨hk, -, hrn, hms⟩ := g3
            refine .inr ⟨hk, sourceTree d hd.attrs kids, ?_, render_whole hy hrn⟩
            obtain ⟨da, ma, ka⟩ := t'
            obtain ⟨db, mb, kb⟩ := t1
            simp only [RTree.data_mk, RTree.kids_mk, RTree.marks_mk] at g1 g2 hms
            subst g1 g2 hms
            rfl
          · exact .inl g3.2
        · exact .inl g3.1
    rcases e3 with rfl | ⟨hk, src, rfl, e3⟩
    · exact .inl e1
    · rw [rear_addMark_hook, ← e1]; exact e3

theorem gwalkList_ends {env : Env} (hy : Tidy env) : ∀ (ts : List RTree), ∀ t ∈ ts, ∀ ⦃t' : RTree⦄ ⦃ctx : Ctx⦄
    ⦃c c' : Counter⦄, t.WF → Parsed t → t.data.edge.visit = true → gwalk env ctx t c = .ok (t', c') →
    t.rear ≠ .stuck → t'.bare.rear = t.rear ∧ (t'.rear = t.rear ∨ t'.rear = .whole)
  | [], t, hm => by simp at hm
  | x :: xs, t, hm => by
    have h1 := gwalk_ends hy x
    have h2 := gwalkList_ends hy xs
    rcases List.mem_cons.1 hm with rfl | hm
    · exact h1
    · exact h2 t hm
end

end Hooq
