import Verif.Proof.Size
import Verif.Props.Watch
import Verif.Props.Fixture

/-!
# C90: how large an expansion gets
-/

set_option linter.unusedSimpArgs false

namespace Hooq

/-- C90.  If every hook is put behind its operand and has at most `K` words besides at most `c`
copies of the source, then code of size `n` becomes code of size `n + 2n(K + cn)` at most. -/
theorem C90_bound (Z : Sizes) {env : Env} {args : List Meta} {i i' : Item} {uses : List Path}
    {K c : Nat} (hsrc : i.IsSource) (h : hooqImpls env args i = .ok (uses, i'))
    (hk : ∀ hk, i'.Hooked hk → hk.Small K c) :
    i'.size Z ≤ i.size Z + 2 * i.size Z * (K + c * i.size Z) := by
  obtain ⟨s, hs⟩ := rootSettings_of_ok h
  obtain ⟨c', hw⟩ := expansion hs h
  have hp : i.tree.plain := plain_of_source hsrc
  have h1 := gwalk_size (Z := Z) (K := K) (c := c) i.tree hp hw
    (allMarks_of_sub fun p n hp m hm => hk m.1 ⟨p, n, hp, m, hm, rfl⟩)
  have h2 := room_le Z K c hp (Nat.le_refl _)
  simp only [Item.size]
  omega

/-- C90, for hooks without copies of the source: the size grows by a constant factor at most. -/
theorem C90_linear (Z : Sizes) {env : Env} {args : List Meta} {i i' : Item} {uses : List Path}
    {K : Nat} (hsrc : i.IsSource) (h : hooqImpls env args i = .ok (uses, i'))
    (hk : ∀ hk, i'.Hooked hk → hk.Small K 0) : i'.size Z ≤ (2 * K + 1) * i.size Z := by
  have := C90_bound Z hsrc h hk
  have e : (2 * K + 1) * i.size Z = i.size Z + 2 * i.size Z * (K + 0 * i.size Z) := by
    rw [Nat.zero_mul, Nat.add_zero K, Nat.add_mul, Nat.one_mul, Nat.mul_right_comm, Nat.add_comm]
  omega

/-! ## The built-in flavors -/

mutual
theorem TT.size_le (n s : Nat) : ∀ t : TT, "$bindings" ∉ t.words → "$hooq_meta" ∉ t.words →
    t.size n s ≤ t.words.length + t.words.count "$expr" * n + t.words.count "$source" * s
  | .ident x _, _, _ | .punct _ _, _, _ | .lit _ _, _, _ => by simp [TT.size, TT.words]; omega
  | .group d ts _, h1, h2 => by
    simp only [TT.words, List.mem_append, not_or] at h1 h2
    have := textSize_le n s ts h1.1.2 h2.1.2
    simp only [TT.size, TT.words, List.length_append, List.count_append]
    have e : ∀ a b c n : Nat, b * n ≤ (a + b + c) * n := fun a b c n => Nat.mul_le_mul_right n (by omega)
    have e1 := e (d.opening.count "$expr") ((wordsOf ts).count "$expr") (d.closing.count "$expr") n
    have e2 := e (d.opening.count "$source") ((wordsOf ts).count "$source") (d.closing.count "$source") s
    omega
  | .exprHole _, _, _ => by simp [TT.size, TT.words]
  | .sourceHole _, _, _ => by simp [TT.size, TT.words]
  | .valueHole v _, _, _ => by simp only [TT.size, TT.words]; omega
  | .bindingsHole _ _, h, _ => by simp [TT.words] at h
  | .metaHole _ _, _, h => by simp [TT.words] at h
theorem textSize_le (n s : Nat) : ∀ ts : List TT, "$bindings" ∉ wordsOf ts → "$hooq_meta" ∉ wordsOf ts →
    textSize n s ts ≤ (wordsOf ts).length + (wordsOf ts).count "$expr" * n + (wordsOf ts).count "$source" * s
  | [], _, _ => by simp [textSize]
  | t :: ts, h1, h2 => by
    simp only [wordsOf, List.mem_append, not_or] at h1 h2
    have i1 := TT.size_le n s t h1.1 h2.1
    have i2 := textSize_le n s ts h1.2 h2.2
    simp only [textSize, wordsOf, List.length_append, List.count_append, Nat.add_mul]
    omega
end

/-- The words for the parts of the source. -/
def holeWords : List String := ["$expr", "$source", "$bindings", "$hooq_meta"]

theorem quoted_ne (p : String) : ∀ w ∈ holeWords, "\"" ++ p ++ "\"" ≠ w := by
  intro w hw h
  have h' := congrArg (fun s : String => s.toList.head?) h
  simp only [holeWords, List.mem_cons, List.not_mem_nil, or_false] at hw
  rcases hw with rfl | rfl | rfl | rfl <;> simp at h'

theorem usize_ne (p : String) : ∀ w ∈ holeWords, p ++ "usize" ≠ w := by
  intro w hw h
  have h' := congrArg (fun s : String => s.toList.reverse[2]?) h
  simp only [holeWords, List.mem_cons, List.not_mem_nil, or_false] at hw
  rcases hw with rfl | rfl | rfl | rfl <;> simp at h'

/-- At most `k` words, the source `c` times, and no other part of the program. -/
structure Few (k c : Nat) (l : List String) : Prop where
  length : l.length ≤ k
  expr : l.count "$expr" = 0
  source : l.count "$source" = c
  bindings : "$bindings" ∉ l
  hooqMeta : "$hooq_meta" ∉ l

theorem Few.append {k k' c c' : Nat} {l l' : List String} (h : Few k c l) (h' : Few k' c' l') :
    Few (k + k') (c + c') (l ++ l') where
  length := by rw [List.length_append]; exact Nat.add_le_add h.length h'.length
  expr := by rw [List.count_append, h.expr, h'.expr]
  source := by rw [List.count_append, h.source, h'.source]
  bindings := by rw [List.mem_append, not_or]; exact ⟨h.bindings, h'.bindings⟩
  hooqMeta := by rw [List.mem_append, not_or]; exact ⟨h.hooqMeta, h'.hooqMeta⟩

theorem few_of {l : List String} (h : ∀ w ∈ holeWords, w ∉ l) : Few l.length 0 l where
  length := Nat.le_refl _
  expr := List.count_eq_zero.2 (h _ (by simp [holeWords]))
  source := List.count_eq_zero.2 (h _ (by simp [holeWords]))
  bindings := h _ (by simp [holeWords])
  hooqMeta := h _ (by simp [holeWords])

theorem few_words {l : List String} (h : holeWords.all (fun w => !l.contains w) = true) : Few l.length 0 l :=
  few_of fun w hw => by simpa using List.all_eq_true.1 h w hw

theorem few_one {x : String} (h : ∀ w ∈ holeWords, x ≠ w) : Few 1 0 [x] :=
  few_of (l := [x]) fun w hw => by simpa using (h w hw).symm

theorem Few.mono {k k' c c' : Nat} {l : List String} (h : Few k c l) (hk : k ≤ k') (hc : c = c') : Few k' c' l :=
  hc ▸ ⟨Nat.le_trans h.length hk, h.expr, h.source, h.bindings, h.hooqMeta⟩

theorem few_source : Few 1 1 ["$source"] := ⟨by decide, by decide, by decide, by decide, by decide⟩

theorem few_lets {a : Spot} (hh : ∀ w ∈ holeWords, w ∉ a.helpers) {mac : String} (hm : ∀ w ∈ holeWords, mac ≠ w) :
    Few (30 + a.helpers.length) 1 (a.lets mac) := by
  have e : a.lets mac = ["let", "path", "="] ++ ["\"" ++ a.path ++ "\""] ++ [";", "let", "line", "="] ++
      [toString a.line ++ "usize"] ++ [";", "let", "col", "="] ++ [toString a.col ++ "usize"] ++
      [";", "let", "expr", "="] ++ a.helpers ++ [":", ":"] ++ [mac] ++ ["!", "("] ++ ["$source"] ++ [")", ";"] := by
    simp [Spot.lets]
  rw [e]
  have w : ∀ l : List String, holeWords.all (fun w => !l.contains w) = true → Few l.length 0 l := fun l => few_words
  exact (((((((((((((w _ (by decide)).append (few_one (quoted_ne _))).append (w _ (by decide))).append
    (few_one (usize_ne _))).append (w _ (by decide))).append (few_one (usize_ne _))).append
    (w _ (by decide))).append (few_of hh)).append (w _ (by decide))).append (few_one hm)).append
    (w _ (by decide))).append few_source).append (w _ (by decide))).mono (by simp; omega) rfl

/-- The text of a built-in flavor has at most 80 words besides the path of the helpers, and the
source once. -/
theorem doc_few {doc : PresetDoc} (hd : doc ∈ presetDocs) (h1 : doc.path ≠ ["empty"])
    (h2 : doc.path ≠ ["hook"]) {a : Spot} (hh : ∀ w ∈ holeWords, w ∉ a.helpers) :
    Few (80 + a.helpers.length) 1 (doc.text a) := by
  have hl : ∀ {mac : String}, (∀ w ∈ holeWords, mac ≠ w) → Few (30 + a.helpers.length) 1 (a.lets mac) :=
    fun h => few_lets hh h
  have l1 := hl (mac := "excerpted_pretty_stringify") (by decide)
  have l2 := hl (mac := "one_line_stringify") (by decide)
  have log : ∀ lv : List String, holeWords.all (fun w => !(absWords lv).contains w) = true →
      (absWords lv).length ≤ 15 → Few (80 + a.helpers.length) 1 (logText lv a) := fun lv g g' =>
    (((((few_words (by decide)).append l1).append (few_words (by decide))).append (few_words g)).append
      (few_words (by decide))).mono (by simp; omega) rfl
  have tr : ∀ lv : List String, holeWords.all (fun w => !(absWords lv).contains w) = true →
      (absWords lv).length ≤ 15 → Few (80 + a.helpers.length) 1 (tracingText lv a) := fun lv g g' =>
    (((((few_words (by decide)).append l2).append (few_words (by decide))).append (few_words g)).append
      (few_words (by decide))).mono (by simp; omega) rfl
  have ct : ∀ name : String, (∀ w ∈ holeWords, name ≠ w) → Few (80 + a.helpers.length) 1 (contextText name a) :=
    fun name g =>
    ((((few_words (l := ["."]) (by decide)).append (few_one g)).append
      (few_words (l := ["(", "|", "|", "{"]) (by decide))).append l1).append (few_words (by decide)) |>.mono (by simp; omega) rfl
  simp only [presetDocs, List.mem_cons, List.not_mem_nil, or_false] at hd
  rcases hd with rfl | rfl | rfl | rfl | rfl | rfl | rfl | rfl | rfl | rfl | rfl | rfl | rfl | rfl | rfl |
    rfl | rfl | rfl
  · exact (((few_words (by decide)).append l1).append (few_words (by decide))).mono (by simp; omega) rfl
  · exact absurd rfl h1
  · exact absurd rfl h2
  all_goals first
    | exact log _ (by decide) (by decide)
    | exact tr _ (by decide) (by decide)
    | exact ct _ (by decide)

/-- C90, for the built-in flavors other than `empty` and `hook`: code of size `n` in which no
attribute sets the method or the log level becomes code of size `n + 2n(80 + h + n)` at most, where
`h` is the number of words of the path of the helper macros. -/
theorem C90_presets (Z : Sizes) {env : Env} {args : List Meta} {i i' : Item} {uses : List Path}
    {helpers : List TT} {doc : PresetDoc} (hp : Builtin env args helpers doc)
    (h1 : doc.path ≠ ["empty"]) (h2 : doc.path ≠ ["hook"]) (hh : ∀ w ∈ holeWords, w ∉ wordsOf helpers)
    (hi : NoMethodAttr env i) (hsrc : i.IsSource) (h : hooqImpls env args i = .ok (uses, i')) :
    i'.size Z ≤ i.size Z + 2 * i.size Z * (80 + (wordsOf helpers).length + i.size Z) := by
  have := C90_bound Z (K := 80 + (wordsOf helpers).length) (c := 1) hsrc h fun hk hin => by
    obtain ⟨k1, -, sp, k2⟩ := C83_spelled hp h1 hi hsrc h hin
    have hf := doc_few hp.row h1 h2 (a := ⟨sp.file, sp.line, sp.col, wordsOf helpers⟩) hh
    rw [← k2] at hf
    refine ⟨k1, fun n s => ?_⟩
    have := textSize_le n s hk.toks hf.bindings hf.hooqMeta
    rw [hf.expr, hf.source] at this
    have := hf.length
    simp only at this
    omega
  rwa [Nat.one_mul] at this

/-! ## The bounds are attained -/

namespace Ex

/-- `x??..?` with `k` question marks. -/
def chain : Nat → Expr
  | 0 => var "x" 2
  | k + 1 => quest [] (chain k) 2

/-- `fn f() -> Result` -/
def deepSig : Sig := { ident := "f", output := result, text := "fn f () -> Result" }

/-- `fn f() -> Result { x??..?; }` -/
def deep (attrs : List Attr) (k : Nat) : Item := .fn attrs deepSig [.expr (chain k) true]

end Ex

theorem handleAttrs_none (env : Env) (c : Ctx) :
    ∃ h, handleAttrs env [] c = .ok h ∧ h.attrs = [] ∧ h.isSkipped = c.isSkipped ∧ h.ctx = c := by
  refine ⟨_, rfl, rfl, ?_, ?_⟩
  · simp
  · rfl

theorem own_pos (Z : Sizes) (d : Data) : 1 ≤ Z.own d :=
  Nat.le_trans (Z.pos _ _) (Nat.le_add_right _ _)

theorem chain_size (Z : Sizes) (ed : Edge) : ∀ k, k + 1 ≤ (viewE ed (Ex.chain k)).size Z
  | 0 => by
    simp only [Ex.chain, Ex.var, viewE, viewK, hnode, size_plain, sizeList]
    exact own_pos Z _
  | k + 1 => by
    have h := chain_size Z {} k
    simp only [Ex.chain, Ex.quest, viewE, viewK, hnode, size_plain, sizeList]
    rw [Nat.add_comm (k + 1)]
    exact Nat.add_le_add (own_pos Z _) h

/-- The walk of a chain, where `g` bounds the size from below. -/
theorem chain_walk (Z : Sizes) {env : Env} {ctx : Ctx} (hs : ctx.isSkipped = false)
    (ht : ctx.targets.has .question = true) {g : Nat → Nat} (h0 : g 0 ≤ 1)
    (hr : ∀ n, ∃ hk, render env { ctx := ctx, kind := .question, count := n, span := Ex.sp 2 9, rear := .whole } = .ok hk ∧
      hk.exc = false ∧ ∀ k n s, g k ≤ n → k + 2 ≤ s → g (k + 1) ≤ 1 + hk.size n s) :
    ∀ k c, ∃ e' c', walkExpr env ctx (Ex.chain k) c = .ok (e', c') ∧ e'.rear = .whole ∧
      ∀ ed, g k ≤ (viewE ed e').size Z
  | 0, c => by
    refine ⟨Ex.chain 0, c, rfl, rfl, fun ed => ?_⟩
    have := chain_size Z ed 0
    omega
  | k + 1, c => by
    obtain ⟨e', c', h1, h2, h3⟩ := chain_walk Z hs ht h0 hr k c
    obtain ⟨h, a1, a2, a3, a4⟩ := handleAttrs_none env ctx
    obtain ⟨hk, r1, r2, r3⟩ := hr ((c'.countUp .question).get .question)
    refine ⟨.mk [] (Ex.sp 2 1) (.try_ (mkHooked hk e' (Ex.chain (k + 1))) (Ex.sp 2 9)), c'.countUp .question, ?_, rfl, ?_⟩
    · simp only [Ex.chain, Ex.quest, walkExpr, walkKind, W.lift, a1, a2, a3, a4, hs, bind, StateT.bind, Except.bind,
        Except.map, h1, h2, hookExpr, ht, r1, r2, pure, StateT.pure, Except.pure, Bool.not_false, if_true,
        Bool.false_eq_true, if_false]
    · intro ed
      have e : ∀ ed, (viewE ed (mkHooked hk e' (Ex.chain (k + 1)))).size Z =
          hk.size ((viewE ed e').size Z) ((viewE {} (Ex.chain (k + 1))).size Z) := by
        intro ed
        simp only [mkHooked, viewE, viewK, r2, Bool.false_eq_true, and_false, if_false, size_addMark]
      have h4 := r3 k _ _ (h3 {}) (chain_size Z {} (k + 1))
      rw [← e] at h4
      simp only [viewE, viewK, hnode, size_plain, sizeList, Nat.add_zero] at h4 ⊢
      exact Nat.le_trans h4 (Nat.add_le_add_right (own_pos Z _) _)

theorem walkStmtExpr_none (env : Env) (ctx : Ctx) (e : Expr) :
    walkStmtExpr env ctx none e = walkExpr env ctx e := by
  cases e; simp only [walkStmtExpr, walkExpr]

/-- The expansion of the sample with a chain. -/
theorem deep_walk (Z : Sizes) {env : Env} {args : List Meta} {attrs : List Attr} {s : Settings}
    {h : Handled} (hroot : rootSettings env args = .ok s) (ha : handleAttrs env attrs (Ctx.new s) = .ok h)
    (hs : h.ctx.isSkipped = false)
    (ht : h.ctx.targets.has .question = true) {g : Nat → Nat} (h0 : g 0 ≤ 1)
    (hr : ∀ n, ∃ hk,
      render env { ctx := (h.ctx.updateFn (.function Ex.deepSig)).subScope, kind := .question
                   count := n, span := Ex.sp 2 9, rear := .whole } = .ok hk ∧ hk.exc = false ∧
      ∀ k n s, g k ≤ n → k + 2 ≤ s → g (k + 1) ≤ 1 + hk.size n s) (k : Nat) :
    ∃ uses out, hooqImpls env args (Ex.deep attrs k) = .ok (uses, out) ∧ g k ≤ out.size Z := by
  have hs' : (h.ctx.updateFn (.function Ex.deepSig)).subScope.isSkipped = false := by
    simp only [Ctx.isSkipped, Ctx.subScope, Ctx.updateFn] at hs ⊢
    cases hk : h.ctx.skip with
    | none => simp
    | some x => simp [hk] at hs
  obtain ⟨e', c', h1, -, h2⟩ := chain_walk Z hs' ht h0 hr k {}
  refine ⟨s.traitUses, .fn h.attrs Ex.deepSig [.expr e' true], ?_, ?_⟩
  · simp only [hooqImpls, hroot, Ex.deep, walkItem, W.lift, ha, walkStmts, bind, StateT.bind, Except.bind,
        Except.map, pure, StateT.pure, Except.pure, walkStmt, walkStmtExpr_none, h1, if_true]
  · simp only [Item.size, Item.tree, viewItem, hnode, size_plain, viewStmts, sizeList, viewStmt]
    exact Nat.le_trans (h2 _) (Nat.le_trans (Nat.le_add_right _ _) (Nat.le_add_left _ _))

mutual
/-- How often the token contains tokens of size `f`. -/
def TT.copies (f : TT → Nat) : TT → Nat
  | .group _ ts _ => textCopies f ts
  | t => f t
/-- How often the text contains tokens of size `f`. -/
def textCopies (f : TT → Nat) : List TT → Nat
  | [] => 0
  | t :: ts => t.copies f + textCopies f ts
end

/-- Is the token `$expr`? -/
def TT.exprOne : TT → Nat
  | .exprHole _ => 1
  | _ => 0

/-- Is the token `$source`? -/
def TT.sourceOne : TT → Nat
  | .sourceHole _ => 1
  | _ => 0

mutual
theorem TT.copies_le (n s : Nat) : ∀ t : TT, t.copies TT.exprOne * n + t.copies TT.sourceOne * s ≤ t.size n s
  | .group d ts _ => by
    have := copies_le n s ts
    simp only [TT.copies, TT.size]
    omega
  | .exprHole _ | .sourceHole _ | .ident _ _ | .punct _ _ | .lit _ _ | .valueHole _ _ | .bindingsHole _ _
  | .metaHole _ _ => by simp [TT.copies, TT.exprOne, TT.sourceOne, TT.size]
theorem copies_le (n s : Nat) : ∀ ts : List TT,
    textCopies TT.exprOne ts * n + textCopies TT.sourceOne ts * s ≤ textSize n s ts
  | [] => by simp [textCopies]
  | t :: ts => by
    have h1 := TT.copies_le n s t
    have h2 := copies_le n s ts
    simp only [textCopies, textSize, Nat.add_mul]
    omega
end

/-- A bound for the size of the sample under the default flavor. -/
def tri : Nat → Nat
  | 0 => 0
  | k + 1 => tri k + k + 3

theorem tri_square : ∀ k, k * k ≤ 2 * tri k
  | 0 => by simp
  | k + 1 => by
    have := tri_square k
    have e : (k + 1) * (k + 1) = k * k + 2 * k + 1 := by rw [Nat.add_mul, Nat.mul_add]; omega
    simp only [tri]
    omega

/-- What the hooks of the sample are made from. -/
def Ex.deepInfo (n : Nat) : RInfo where
  ctx := ((Ctx.new Ex.settings).updateFn (.function Ex.deepSig)).subScope
  kind := .question
  count := n
  span := Ex.sp 2 9
  rear := .whole

/-- The text of the hooks of the sample under the default flavor. -/
def Ex.deepText : List TT :=
  match render Ex.env (Ex.deepInfo 0) with
  | .ok hk => hk.toks
  | .error _ => []

theorem deep_copies : textCopies TT.sourceOne Ex.deepText = 1 := by decide +kernel

theorem deep_hook (n : Nat) : render Ex.env (Ex.deepInfo n) =
    .ok { kind := .question, mode := .insert, toks := Ex.deepText, exc := false, shape := .other .whole
          span := Ex.sp 2 9, count := n } := rfl

/-- C90: with the default flavor, code of size `n` may get a size of the order of `n²`. -/
theorem C90_square (Z : Sizes) (k : Nat) :
    ∃ uses out, hooqImpls Ex.env [] (Ex.deep [] k) = .ok (uses, out) ∧ k * k ≤ 2 * out.size Z := by
  have key : ∃ uses out, hooqImpls Ex.env [] (Ex.deep [] k) = .ok (uses, out) ∧ tri k ≤ out.size Z := by
    obtain ⟨h, a1, -, -, a4⟩ := handleAttrs_none Ex.env (Ctx.new Ex.settings)
    refine deep_walk Z Ex.root_ok a1 (by rw [a4]; rfl) (by rw [a4]; rfl) (by decide) (fun n => ?_) k
    refine ⟨_, by rw [a4]; exact deep_hook n, rfl, fun k n s g1 g2 => ?_⟩
    have := copies_le n s Ex.deepText
    rw [deep_copies] at this
    simp only [HookData.size, tri]
    omega
  obtain ⟨uses, out, h1, h2⟩ := key
  refine ⟨uses, out, h1, ?_⟩
  have := tri_square k
  omega

namespace Ex

/-- `pick($expr, $expr)` -/
def pickMethod : List TT := [tkId "pick", tkParen (tkVar "expr" ++ [tkP ','] ++ tkVar "expr")]

/-- The sample in which the result of a replacement is a call. -/
def pickEnv : Env := { env with replaceShape := fun _ _ => some (.call (.ofIdents ["pick"])) }

end Ex

/-- C90: with a method that takes the operand twice, code of size `n` may get a size of the order
of `2ⁿ`. -/
theorem C90_double (Z : Sizes) (k : Nat) :
    ∃ uses out, hooqImpls Ex.pickEnv [] (Ex.deep [.list (hooqPath "method") Ex.pickMethod] k) = .ok (uses, out) ∧
      2 ^ k ≤ out.size Z := by
  refine deep_walk Z (g := fun k => 2 ^ k) (s := Ex.settings) rfl rfl rfl rfl (by decide)
    (fun n => ⟨_, rfl, rfl, fun k n s h1 h2 => ?_⟩) k
  refine Nat.le_trans ?_ (Nat.add_le_add_left (copies_le n s _) 1)
  have e : ∀ x y : Nat, x = 2 → 2 ^ (k + 1) ≤ 1 + (x * n + y * s) := by
    rintro _ y rfl
    simp only [Nat.pow_succ]
    omega
  exact e _ _ rfl

/-! ## An example -/

section
open Ex
set_option maxRecDepth 10000

/-- Every node, attribute and word counts as one. -/
def Ex.ones : Sizes where
  node _ _ := 1
  attr _ := 1
  pos _ _ := Nat.le_refl _
  consumed _ _ _ := Nat.le_refl _

/-- The hypotheses of `C90_presets` can be met: `#[hooq(log::warn)]` on
`fn f() -> Result { m!(w?, 1); Ok(k) }`, which has 8 nodes. -/
example : ∃ o, hooqImpls env logArgs logged = .ok ([], o) ∧ logged.size ones = 8 ∧
    8 < o.size ones ∧ o.size ones ≤ 8 + 2 * 8 * (80 + 1 + 8) := by
  have hsrc : logged.IsSource := fun p n hs => by
    have := allNodes_sub (t := logged.tree) (f := fun n => !n.built) rfl hs
    simpa using this
  have hi : NoMethodAttr env logged := fun p n hs a ha => by
    have := allNodes_sub (t := logged.tree) (f := fun n => n.data.seen.isEmpty) rfl hs
    simp only [List.isEmpty_iff] at this
    simp [this] at ha
  have hb : ∀ o, hooqImpls env logArgs logged = .ok ([], o) → o.size ones ≤ _ := fun o h =>
    C90_presets ones logged_builtin (by decide) (by decide) (by decide) hi hsrc h
  exact ⟨_, rfl, rfl, by decide +kernel, hb _ rfl⟩

end

end Hooq
