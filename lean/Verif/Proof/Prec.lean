import Verif.Spec.Prec

/-!
# Printing and reading expressions
-/

namespace Hooq

theorem parse_mono (n : Nat) :
    (∀ ts x, parseOperand n ts = some x → parseOperand (n + 1) ts = some x) ∧
    (∀ min ts x, parseExpr n min ts = some x → parseExpr (n + 1) min ts = some x) ∧
    (∀ min l ts x, opLoop n min l ts = some x → opLoop (n + 1) min l ts = some x) := by
  induction n with
  | zero => simp [parseOperand, parseExpr, opLoop]
  | succ n ih =>
    obtain ⟨i1, i2, i3⟩ := ih
    refine ⟨?_, ?_, ?_⟩
    · intro ts x h
      unfold parseOperand at h ⊢
      split at h
      · exact h
      · split at h
        · rename_i h1
          rw [i2 _ _ _ h1]; exact h
        · simp at h
      · split at h
        · rename_i h1; rw [if_pos h1]; exact h
        · rename_i h1
          rw [if_neg h1]
          split at h
          · rename_i h2
            rw [i2 _ _ _ h2]; exact h
          · simp at h
      · simp at h
    · intro min ts x h
      unfold parseExpr at h ⊢
      split at h
      · rename_i h1
        rw [i1 _ _ h1]; exact i3 _ _ _ _ h
      · simp at h
    · intro min l ts x h
      unfold opLoop at h ⊢
      split at h
      · split at h
        · rename_i h1
          rw [if_pos h1]
          split at h
          · rename_i h2; rw [if_pos h2]; exact i3 _ _ _ _ h
          · rename_i h2
            rw [if_neg h2]
            split at h
            · rename_i h3
              rw [i2 _ _ _ h3]; exact i3 _ _ _ _ h
            · simp at h
        · rename_i h1; rw [if_neg h1]; exact h
      · split at h
        · rename_i h1; rw [if_pos h1]; exact i3 _ _ _ _ h
        · rename_i h1; rw [if_neg h1]; exact h
      · exact h

theorem operand_le {n m : Nat} (h : n ≤ m) {ts x} (hx : parseOperand n ts = some x) : parseOperand m ts = some x := by
  induction h with
  | refl => exact hx
  | step _ ih => exact (parse_mono _).1 _ _ ih

theorem expr_le {n m : Nat} (h : n ≤ m) {k ts x} (hx : parseExpr n k ts = some x) : parseExpr m k ts = some x := by
  induction h with
  | refl => exact hx
  | step _ ih => exact (parse_mono _).2.1 _ _ _ ih

theorem loop_le {n m : Nat} (h : n ≤ m) {k l ts x} (hx : opLoop n k l ts = some x) : opLoop m k l ts = some x := by
  induction h with
  | refl => exact hx
  | step _ ih => exact (parse_mono _).2.2 _ _ _ _ ih

theorem not_ends_print (e : PE) (r : List XTok) : ends (e.print ++ r) = false := by
  induction e generalizing r with
  | atom s => rfl
  | paren e => rfl
  | post e m ih => simp only [PE.print, List.append_assoc]; exact ih _
  | bin o l r ihl => simp only [PE.print, List.append_assoc]; exact ihl _
  | half o l ih => simp only [PE.print, List.append_assoc]; exact ih _
  | suf s l ih => simp only [PE.print, List.append_assoc]; exact ih _
  | pre p e => rfl
  | bare p => rfl

theorem atLeast_zero (e : PE) : e.AtLeast 0 := by
  induction e <;> simp_all [PE.AtLeast]

/-- What may come after an expression without becoming part of it. -/
def Ends (e : PE) : List XTok → Prop
  | [] => True
  | .rp :: _ => True
  | .bin o :: _ => ¬ e.Takes o.lbp
  | .suf s :: _ => ¬ e.Takes s.lbp
  | .post _ :: _ => e.Stuck
  | _ => False

theorem Ends.ends {e : PE} {rest : List XTok} (h : Ends e rest) (ht : ∀ q, e.Takes q) : ends rest = true := by
  unfold Ends at h
  split at h
  · rfl
  · rfl
  · exact absurd (ht _) h
  · exact absurd (ht _) h
  · rfl
  · exact absurd h id

theorem loop_stop {e : PE} {rest : List XTok} {min : Nat} (h1 : ∀ o r, rest = .bin o :: r → ¬ min ≤ o.lbp)
    (h2 : ∀ s r, rest = .suf s :: r → ¬ min ≤ s.lbp) : opLoop 1 min e rest = some (e, rest) := by
  unfold opLoop
  split
  · rw [if_neg (h1 _ _ rfl)]
  · rw [if_neg (h2 _ _ rfl)]
  · rfl

theorem postLoop_end {e : PE} {rest : List XTok} (h : ∀ m r, rest ≠ .post m :: r) : postLoop e rest = (e, rest) := by
  unfold postLoop
  split
  · exact absurd rfl (h _ _)
  · rfl

/-- Reading a postfix-level expression and going on with postfix operators. -/
theorem read_post {e : PE} (hw : e.WF) (hp : e.IsPost)
    (hpar : ∀ e', sizeOf e' < sizeOf e → e'.WF → ∀ rest, Ends e' rest → ∀ x min, e'.AtLeast min →
      (∃ n, opLoop n min e' rest = some x) → ∃ n, parseExpr n min (e'.print ++ rest) = some x) :
    ∀ rest, ∃ n, parseOperand n (e.print ++ rest) = some (postLoop e rest) := by
  induction e with
  | atom s => exact fun rest => ⟨1, rfl⟩
  | paren e' =>
    intro rest
    obtain ⟨n, hn⟩ := hpar e' (by simp) hw (.rp :: rest) trivial (e', .rp :: rest) 0
      (atLeast_zero e') ⟨1, by unfold opLoop; rfl⟩
    refine ⟨n + 1, ?_⟩
    simp only [PE.print, List.cons_append, List.append_assoc, List.nil_append, parseOperand, hn]
  | post e' m ih =>
    intro rest
    obtain ⟨n, hn⟩ := ih hw.1 hw.2 (fun x hx => hpar x (by simp; omega)) (.post m :: rest)
    exact ⟨n, by simpa [PE.print, postLoop] using hn⟩
  | bin => exact absurd hp id
  | half => exact absurd hp id
  | suf => exact absurd hp id
  | pre => exact absurd hp id
  | bare => exact absurd hp id

/-- Reading a printed expression and going on with operators. -/
theorem read_expr (e : PE) (hw : e.WF) (rest : List XTok) (he : Ends e rest) (x : PE × List XTok) (min : Nat)
    (hm : e.AtLeast min) (hx : ∃ n, opLoop n min e rest = some x) :
    ∃ n, parseExpr n min (e.print ++ rest) = some x := by
  have post : e.IsPost → (∃ n, parseOperand n (e.print ++ rest) = some (postLoop e rest)) →
      ∃ n, parseExpr n min (e.print ++ rest) = some x := by
    rintro hp ⟨n, hn⟩
    obtain ⟨k, hk⟩ := hx
    have hr : postLoop e rest = (e, rest) := by
      apply postLoop_end
      rintro m r rfl
      cases e <;> first | exact absurd he id | exact absurd hp id
    rw [hr] at hn
    refine ⟨max n k + 1, ?_⟩
    simp only [parseExpr, operand_le (Nat.le_max_left n k) hn]
    exact loop_le (Nat.le_max_right n k) hk
  cases e with
  | atom s => exact post trivial ⟨1, rfl⟩
  | paren e' =>
    exact post trivial (read_post hw trivial
      (fun e1 h1 h2 r h3 y mn h4 h5 => read_expr e1 h2 r h3 y mn h4 h5) rest)
  | post e' m =>
    exact post trivial (read_post hw trivial
      (fun e1 h1 h2 r h3 y mn h4 h5 => read_expr e1 h2 r h3 y mn h4 h5) rest)
  | bin o l r =>
    obtain ⟨w1, w2, w4, w5⟩ := hw
    obtain ⟨k, hk⟩ := hx
    have hmin : min ≤ o.lbp := hm.1
    have hr : Ends r rest := by
      revert he
      unfold Ends
      split <;> intro he
      · trivial
      · trivial
      · exact fun h => he (.inr h)
      · exact fun h => he (.inr h)
      · exact he
      · exact he
    have hrd : ∃ n, opLoop n o.rbp r rest = some (r, rest) := by
      refine ⟨1, loop_stop ?_ ?_⟩
      · rintro o' r' rfl hc; exact he (.inl hc)
      · rintro o' r' rfl hc; exact he (.inl hc)
    obtain ⟨n2, hn2⟩ := read_expr r w2 rest hr _ o.rbp w5 hrd
    have hs : (o.opt && ends (r.print ++ rest)) = false := by rw [not_ends_print]; simp
    have hl : opLoop (max n2 k + 1) min l (.bin o :: (r.print ++ rest)) = some x := by
      simp only [opLoop, if_pos hmin, hs, expr_le (Nat.le_max_left n2 k) hn2]
      exact loop_le (Nat.le_max_right n2 k) hk
    have hlm : l.AtLeast min := hm.2
    have := read_expr l w1 (.bin o :: (r.print ++ rest)) w4 x min hlm ⟨_, hl⟩
    simpa [PE.print] using this
  | half o l =>
    obtain ⟨w0, w1, w4⟩ := hw
    obtain ⟨k, hk⟩ := hx
    have hmin : min ≤ o.lbp := hm.1
    have hl : opLoop (k + 1) min l (.bin o :: rest) = some x := by
      simp only [opLoop, if_pos hmin, w0, he.ends (fun _ => trivial)]
      exact hk
    have hlm : l.AtLeast min := hm.2
    have := read_expr l w1 (.bin o :: rest) w4 x min hlm ⟨_, hl⟩
    simpa [PE.print] using this
  | suf s l =>
    obtain ⟨w1, w4⟩ := hw
    obtain ⟨k, hk⟩ := hx
    have hmin : min ≤ s.lbp := hm.1
    have hl : opLoop (k + 1) min l (.suf s :: rest) = some x := by
      simp only [opLoop, if_pos hmin]
      exact hk
    have hlm : l.AtLeast min := hm.2
    have := read_expr l w1 (.suf s :: rest) w4 x min hlm ⟨_, hl⟩
    simpa [PE.print] using this
  | pre p e =>
    obtain ⟨w1, w2⟩ := hw
    obtain ⟨k, hk⟩ := hx
    have hr : Ends e rest := by
      revert he
      unfold Ends
      split <;> intro he
      · trivial
      · trivial
      · exact fun h => he (.inr h)
      · exact fun h => he (.inr h)
      · exact he
      · exact he
    have hrd : ∃ n, opLoop n p.lvl e rest = some (e, rest) := by
      refine ⟨1, loop_stop ?_ ?_⟩
      · rintro o' r' rfl hc; exact he (.inl hc)
      · rintro o' r' rfl hc; exact he (.inl hc)
    obtain ⟨n2, hn2⟩ := read_expr e w1 rest hr _ p.lvl w2 hrd
    have hs : (p.opt && ends (e.print ++ rest)) = false := by rw [not_ends_print]; simp
    refine ⟨max n2 k + 2, ?_⟩
    have ho : parseOperand (max n2 k + 1) (.pre p :: (e.print ++ rest)) = some (.pre p e, rest) := by
      simp only [parseOperand, hs, expr_le (Nat.le_max_left n2 k) hn2]
      rfl
    simp only [PE.print, List.cons_append]
    unfold parseExpr
    rw [ho]
    exact loop_le (by omega) hk
  | bare p =>
    obtain ⟨k, hk⟩ := hx
    refine ⟨k + 2, ?_⟩
    have ho : parseOperand (k + 1) (.pre p :: rest) = some (.bare p, rest) := by
      have hw' : p.opt = true := hw
      simp only [parseOperand, hw', he.ends (fun _ => trivial)]
      rfl
    simp only [PE.print, List.cons_append, List.nil_append]
    unfold parseExpr
    rw [ho]
    exact loop_le (by omega) hk
termination_by sizeOf e

/-- An expression that needs no more parentheses is read as itself. -/
theorem reads_self {e : PE} (hw : e.WF) : Reads e.print e := by
  have := read_expr e hw [] trivial (e, []) 0 (atLeast_zero e) ⟨1, by unfold opLoop; rfl⟩
  simpa [Reads] using this

/-- A text is read in at most one way. -/
theorem Reads.unique {ts : List XTok} {e e' : PE} (h : Reads ts e) (h' : Reads ts e') : e = e' := by
  obtain ⟨n, hn⟩ := h
  obtain ⟨m, hm⟩ := h'
  have h1 := expr_le (Nat.le_max_left n m) hn
  rw [expr_le (Nat.le_max_right n m) hm] at h1
  simpa using h1.symm

theorem onLast_print (m : String) {e : PE} : (e.onLast m).print = e.print ++ [.post m] := by
  induction e with
  | bin o l r _ ih => simp [PE.onLast, PE.print, ih]
  | pre p e ih => simp [PE.onLast, PE.print, ih]
  | _ => simp [PE.onLast, PE.print]

theorem onLast_atLeast (m : String) {e : PE} {k : Nat} (h : e.AtLeast k) : (e.onLast m).AtLeast k := by
  cases e <;> first | exact h | trivial

theorem onLast_wf (m : String) {e : PE} (hw : e.WF) (hs : ¬ e.Stuck) : (e.onLast m).WF := by
  induction e with
  | bin o l r _ ih => exact ⟨hw.1, ih hw.2.1 hs, hw.2.2.1, onLast_atLeast m hw.2.2.2⟩
  | pre p e ih => exact ⟨ih hw.1 hs, onLast_atLeast m hw.2⟩
  | atom s => exact ⟨trivial, trivial⟩
  | paren e => exact ⟨hw, trivial⟩
  | post e x => exact ⟨hw, trivial⟩
  | half => exact absurd trivial hs
  | suf => exact absurd trivial hs
  | bare => exact absurd trivial hs

/-- What the parser leaves after an expression read with operators from `min` on. -/
def Left (min : Nat) (e : PE) : List XTok → Prop
  | .bin o :: _ => o.lbp < min ∧ ¬ e.Takes o.lbp
  | .suf s :: _ => s.lbp < min ∧ ¬ e.Takes s.lbp
  | .post _ :: _ => e.Stuck
  | _ => True

/-- What may follow an operand. -/
def Follows (e : PE) : List XTok → Prop
  | .bin o :: _ => ¬ e.Takes o.lbp
  | .suf s :: _ => ¬ e.Takes s.lbp
  | .post _ :: _ => e.Stuck
  | _ => True

theorem postLoop_sound {e : PE} (hw : e.WF) (hp : e.IsPost) (ts : List XTok) :
    e.print ++ ts = (postLoop e ts).1.print ++ (postLoop e ts).2 ∧ (postLoop e ts).1.WF ∧
      (postLoop e ts).1.IsPost ∧ ∀ m r, (postLoop e ts).2 ≠ .post m :: r := by
  induction ts generalizing e with
  | nil => exact ⟨rfl, hw, hp, by simp [postLoop]⟩
  | cons t ts ih =>
    unfold postLoop
    split
    · rename_i m r heq
      simp only [List.cons.injEq] at heq
      obtain ⟨rfl, rfl⟩ := heq
      obtain ⟨h1, h2⟩ := ih (e := .post e m) ⟨hw, hp⟩ trivial
      exact ⟨by rw [← h1]; simp [PE.print], h2⟩
    · rename_i hne
      exact ⟨rfl, hw, hp, hne⟩

theorem follows_post {e : PE} (hp : e.IsPost) {r : List XTok} (h : ∀ m r', r ≠ .post m :: r') : Follows e r := by
  unfold Follows
  split
  · intro hc; cases e <;> first | exact hc | exact hp
  · intro hc; cases e <;> first | exact hc | exact hp
  · exact absurd rfl (h _ _)
  · trivial

theorem parse_sound (n : Nat) :
    (∀ ts e r, parseOperand n ts = some (e, r) → ts = e.print ++ r ∧ e.WF ∧ (∀ k, e.AtLeast k) ∧ Follows e r) ∧
    (∀ min ts e r, parseExpr n min ts = some (e, r) → ts = e.print ++ r ∧ e.WF ∧ e.AtLeast min ∧ Left min e r) ∧
    (∀ min l ts e r, opLoop n min l ts = some (e, r) → l.WF → l.AtLeast min → Follows l ts →
      l.print ++ ts = e.print ++ r ∧ e.WF ∧ e.AtLeast min ∧ Left min e r) := by
  induction n with
  | zero => simp [parseOperand, parseExpr, opLoop]
  | succ n ih =>
    obtain ⟨i1, i2, i3⟩ := ih
    have isPost_atLeast : ∀ {e : PE}, e.IsPost → ∀ k, e.AtLeast k := by
      intro e hp k; cases e <;> first | trivial | exact absurd hp id
    refine ⟨?_, ?_, ?_⟩
    · intro ts e r h
      unfold parseOperand at h
      split at h
      · rename_i s r0
        simp only [Option.some.injEq] at h
        obtain ⟨h1, h2, h3, h4⟩ := postLoop_sound (e := .atom s) trivial trivial r0
        rw [h] at h1 h2 h3 h4
        exact ⟨h1, h2, isPost_atLeast h3, follows_post h3 h4⟩
      · split at h
        · rename_i e0 r1 h0
          obtain ⟨g1, g2, -, -⟩ := i2 _ _ _ _ h0
          simp only [Option.some.injEq] at h
          obtain ⟨h1, h2, h3, h4⟩ := postLoop_sound (e := .paren e0) g2 trivial r1
          rw [h] at h1 h2 h3 h4
          refine ⟨?_, h2, isPost_atLeast h3, follows_post h3 h4⟩
          rw [← h1, g1]; simp [PE.print]
        · simp at h
      · split at h
        · rename_i h0
          simp only [Option.some.injEq, Prod.mk.injEq] at h
          obtain ⟨rfl, rfl⟩ := h
          simp only [Bool.and_eq_true] at h0
          refine ⟨rfl, h0.1, fun _ => trivial, ?_⟩
          have h2 := h0.2
          unfold Hooq.ends at h2
          split at h2
          · trivial
          · trivial
          · trivial
          · simp at h2
        · split at h
          · rename_i p r0 _ e0 r1 h0
            simp only [Option.some.injEq, Prod.mk.injEq] at h
            obtain ⟨rfl, rfl⟩ := h
            obtain ⟨g1, g2, g3, g4⟩ := i2 _ _ _ _ h0
            refine ⟨by rw [g1]; rfl, ⟨g2, g3⟩, fun _ => trivial, ?_⟩
            revert g4
            unfold Left Follows
            split <;> intro g4
            · rintro (hc | hc)
              · omega
              · exact g4.2 hc
            · rintro (hc | hc)
              · omega
              · exact g4.2 hc
            · exact g4
            · trivial
          · simp at h
      · simp at h
    · intro min ts e r h
      unfold parseExpr at h
      split at h
      · rename_i e0 r0 h0
        obtain ⟨g1, g2, g3, g4⟩ := i1 _ _ _ h0
        rw [g1]
        exact i3 _ _ _ _ _ h g2 (g3 min) g4
      · simp at h
    · intro min l ts e r h hw hm hf
      unfold opLoop at h
      split at h
      · rename_i o r0
        have hf' : ¬ l.Takes o.lbp := hf
        split at h
        · rename_i hmin
          split at h
          · rename_i h0
            simp only [Bool.and_eq_true] at h0
            have hend : Follows (.half o l) r0 := by
              have h2 := h0.2
              unfold Hooq.ends at h2
              split at h2
              · trivial
              · trivial
              · trivial
              · simp at h2
            obtain ⟨g1, g2⟩ := i3 _ _ _ _ _ h ⟨h0.1, hw, hf'⟩ ⟨hmin, hm⟩ hend
            exact ⟨by rw [← g1]; simp [PE.print], g2⟩
          · split at h
            · rename_i e0 r1 h0
              obtain ⟨k1, k2, k3, k4⟩ := i2 _ _ _ _ h0
              have hend : Follows (.bin o l e0) r1 := by
                revert k4
                unfold Left Follows
                split <;> intro g4
                · rintro (hc | hc)
                  · omega
                  · exact g4.2 hc
                · rintro (hc | hc)
                  · omega
                  · exact g4.2 hc
                · exact g4
                · trivial
              obtain ⟨g1, g2⟩ := i3 _ _ _ _ _ h ⟨hw, k2, hf', k3⟩ ⟨hmin, hm⟩ hend
              exact ⟨by rw [← g1, k1]; simp [PE.print], g2⟩
            · simp at h
        · rename_i hmin
          simp only [Option.some.injEq, Prod.mk.injEq] at h
          obtain ⟨rfl, rfl⟩ := h
          exact ⟨rfl, hw, hm, by omega, hf'⟩
      · rename_i s r0
        have hf' : ¬ l.Takes s.lbp := hf
        split at h
        · rename_i hmin
          have hend : Follows (.suf s l) r0 := by
            unfold Follows
            split
            · exact id
            · exact id
            · trivial
            · trivial
          obtain ⟨g1, g2⟩ := i3 _ _ _ _ _ h ⟨hw, hf'⟩ ⟨hmin, hm⟩ hend
          exact ⟨by rw [← g1]; simp [PE.print], g2⟩
        · rename_i hmin
          simp only [Option.some.injEq, Prod.mk.injEq] at h
          obtain ⟨rfl, rfl⟩ := h
          exact ⟨rfl, hw, hm, by omega, hf'⟩
      · rename_i hb hs
        simp only [Option.some.injEq, Prod.mk.injEq] at h
        obtain ⟨rfl, rfl⟩ := h
        refine ⟨rfl, hw, hm, ?_⟩
        revert hf
        unfold Left Follows
        split <;> intro hf
        · exact absurd rfl (hb _ _)
        · exact absurd rfl (hs _ _)
        · exact hf
        · trivial

/-- A text is read as a tree exactly if it is the print of the tree and the tree needs
no more parentheses. -/
theorem reads_iff (ts : List XTok) (e : PE) : Reads ts e ↔ e.WF ∧ ts = e.print := by
  constructor
  · rintro ⟨n, h⟩
    obtain ⟨h1, h2, -, -⟩ := (parse_sound n).2.1 _ _ _ _ h
    exact ⟨h2, by simpa using h1⟩
  · rintro ⟨h1, rfl⟩
    exact reads_self h1

end Hooq
