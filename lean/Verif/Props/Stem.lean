import Verif.Props.Once

/-!
# Reports are about errors (C101)
-/

namespace Hooq

/-- An error with which a run of a node ends has the property. -/
def Stop.ErrIn {Ty : Nat → Type} (Q : Dyn Ty → Prop) : Stop Ty → Prop
  | .val (.res (.err e)) => Q e
  | .leave (.res (.err e)) => Q e
  | _ => True

/-- The errors `Q` are all that occur, and the reports `R` all that are made. -/
structure Setting.Covers {Ty : Nat → Type} (S : Setting Ty) (helpers : List TT) (i : Item) (Q : Dyn Ty → Prop)
    (R : Report Ty → Prop) : Prop where
  silent : ∀ hk, i.Hooked hk → hk.Silent S helpers
  given : ∀ n e evs, S.gives n (.res (.err e)) evs → Q e
  events : ∀ n v evs, S.gives n v evs → ∀ r ∈ evs, R r
  conv : ∀ e e', Q e → S.conv e e' → Q e'
  hook : ∀ hk sc e e' evs, i.Hooked hk → Q e →
    Does (S.world hk) helpers (Locals.ofScope sc) hk.toks (.err e) (.err e') evs → Q e' ∧ ∀ r ∈ evs, R r

section
variable {Ty : Nat → Type} {S : Setting Ty} {helpers : List TT} {i : Item} {Q : Dyn Ty → Prop} {R : Report Ty → Prop}
  (w : S.Covers helpers i Q R)
include w

theorem Setting.Covers.hooks {hks : List HookData} {o o' : Stop Ty} {evs : List (Report Ty)}
    (h : S.Hooks helpers hks o o' evs) (hk : ∀ k ∈ hks, i.Hooked k) (ho : o.ErrIn Q) : o'.ErrIn Q ∧ ∀ r ∈ evs, R r := by
  induction h with
  | nil => exact ⟨ho, by simp⟩
  | leave => exact ⟨ho, by simp⟩
  | jump => exact ⟨ho, by simp⟩
  | @cons k hks v v' o e1 e2 h1 h2 ih =>
    have hk1 := hk k List.mem_cons_self
    have : (Stop.val v').ErrIn Q ∧ ∀ r ∈ e1, R r := by
      cases h1 with
      | unknown hu => exact absurd (w.silent k hk1).1 hu
      | other => exact ⟨trivial, by simp⟩
      | res sc _ h1 =>
        rcases (w.silent k hk1).2 _ _ _ _ h1 with ⟨v, rfl, rfl, rfl⟩ | ⟨e, e', rfl, rfl⟩
        · exact ⟨trivial, by simp⟩
        · exact w.hook k sc e e' _ hk1 ho h1
    obtain ⟨g1, g2⟩ := ih (fun x hx => hk x (List.mem_cons_of_mem _ hx)) this.1
    refine ⟨g1, fun r hr => ?_⟩
    rcases List.mem_append.1 hr with hr | hr
    · exact this.2 r hr
    · exact g2 r hr

omit w in
theorem kid_sub {t n k : RTree} {p : List Nat} (hn : t.sub p = some n) {j : Nat} (hk : n.kids[j]? = some k) :
    t.sub (p ++ [j]) = some k := by
  rw [sub_append hn]
  obtain ⟨dn, ms, ks⟩ := n
  obtain ⟨a, b, c⟩ := k
  simp only [RTree.kids] at hk
  simp [RTree.sub, hk]

omit w in
theorem mem_handDown {n : RTree} {l : List HookData} {j : Nat} {hk : HookData} (h : hk ∈ handDown n l j) : hk ∈ l := by
  rw [handDown] at h
  split at h
  · exact h
  · simp at h

theorem Setting.Covers.runs_parts :
    (∀ {n l o evs}, S.Runs helpers n l o evs →
      ∀ p, i.tree.sub p = some n → (∀ hk ∈ l, i.Hooked hk) → o.ErrIn Q ∧ ∀ r ∈ evs, R r) ∧
    ∀ {n l evs}, S.Parts helpers n l evs → ∀ p, i.tree.sub p = some n → (∀ hk ∈ l, i.Hooked hk) → ∀ r ∈ evs, R r := by
  have both : ∀ {e1 e2 : List (Report Ty)}, (∀ r ∈ e1, R r) → (∀ r ∈ e2, R r) → ∀ r ∈ e1 ++ e2, R r := by
    intro e1 e2 h1 h2 r hr
    rcases List.mem_append.1 hr with hr | hr
    · exact h1 r hr
    · exact h2 r hr
  have own : ∀ {n p l}, i.tree.sub p = some n → (∀ hk ∈ l, i.Hooked hk) → ∀ hk ∈ n.marks.map Prod.fst ++ l, i.Hooked hk := by
    intro n p l hn hl k hk
    rcases List.mem_append.1 hk with hk | hk
    · obtain ⟨m, hm, rfl⟩ := List.mem_map.1 hk
      exact ⟨p, n, hn, m, hm, rfl⟩
    · exact hl k hk
  let M1 : RTree → List HookData → Stop Ty → List (Report Ty) → Prop := fun n l o evs =>
    ∀ p, i.tree.sub p = some n → (∀ hk ∈ l, i.Hooked hk) → o.ErrIn Q ∧ ∀ r ∈ evs, R r
  let M2 : RTree → List HookData → List (Report Ty) → Prop := fun n l evs =>
    ∀ p, i.tree.sub p = some n → (∀ hk ∈ l, i.Hooked hk) → ∀ r ∈ evs, R r
  have c1 : ∀ {n hks o o' e1 e2}, n.data.rear = .closed → S.Inside helpers n [] o e1 →
      S.Hooks helpers (n.marks.map Prod.fst ++ hks) o o' e2 → M1 n [] o e1 → M1 n hks o' (e1 ++ e2) := by
    intro n l o o' e1 e2 _ _ h3 ih p hn hl
    obtain ⟨g1, g2⟩ := ih p hn (by simp)
    obtain ⟨g3, g4⟩ := w.hooks h3 (own hn hl) g1
    exact ⟨g3, both g2 g4⟩
  have c2 : ∀ {n hks o e1}, n.data.rear ≠ .closed → S.Inside helpers n (n.marks.map Prod.fst ++ hks) o e1 →
      M1 n (n.marks.map Prod.fst ++ hks) o e1 → M1 n hks o e1 := fun _ _ ih p hn hl => ih p hn (own hn hl)
  have c3 : ∀ {n hks}, M2 n hks [] := fun p hn hl => by simp
  have c4 : ∀ {n hks j k o e1 e2}, S.Parts helpers n hks e1 → n.kids[j]? = some k → S.Runs helpers k (handDown n hks j) o e2 →
      o.goesOn k → M2 n hks e1 → M1 k (handDown n hks j) o e2 → M2 n hks (e1 ++ e2) := by
    intro n l j k o e1 e2 _ h2 _ _ ih1 ih2 p hn hl
    exact both (ih1 p hn hl) (ih2 _ (kid_sub hn h2) fun hk h => hl hk (mem_handDown h)).2
  have c5 : ∀ {n hks v e1 e2}, n.data.tag ≠ .ret → S.Parts helpers n hks e1 → S.gives n v e2 → M2 n hks e1 →
      M1 n hks (.val v) (e1 ++ e2) := by
    intro n l v e1 e2 _ _ h3 ih p hn hl
    refine ⟨?_, both (ih p hn hl) (w.events _ _ _ h3)⟩
    cases v with
    | other => trivial
    | res r =>
      cases r with
      | ok v => trivial
      | err e => exact w.given _ _ _ h3
  have c6 : ∀ {n hks e1}, S.Parts helpers n hks e1 → M2 n hks e1 → M1 n hks .jump e1 :=
    fun _ ih p hn hl => ⟨trivial, ih p hn hl⟩
  have c7 : ∀ {n hks j k v e1 e2}, S.Parts helpers n hks e1 → n.kids[j]? = some k → k.data.edge.fn = none →
      S.Runs helpers k (handDown n hks j) (.leave v) e2 → M2 n hks e1 → M1 k (handDown n hks j) (.leave v) e2 →
      M1 n hks (.leave v) (e1 ++ e2) := by
    intro n l j k v e1 e2 _ h2 _ _ ih1 ih2 p hn hl
    obtain ⟨g1, g2⟩ := ih2 _ (kid_sub hn h2) fun hk h => hl hk (mem_handDown h)
    exact ⟨g1, both (ih1 p hn hl) g2⟩
  have c8 : ∀ {n hks q j k e e' e1 e2}, n.data.tag = .question q false → S.Parts helpers n hks e1 → n.kids[j]? = some k →
      S.Runs helpers k (handDown n hks j) (.val (.res (.err e))) e2 → S.conv e e' → M2 n hks e1 →
      M1 k (handDown n hks j) (.val (.res (.err e))) e2 → M1 n hks (.leave (.res (.err e'))) (e1 ++ e2) := by
    intro n l q j k e e' e1 e2 _ _ h2 _ h5 ih1 ih2 p hn hl
    obtain ⟨g1, g2⟩ := ih2 _ (kid_sub hn h2) fun hk h => hl hk (mem_handDown h)
    exact ⟨w.conv _ _ g1 h5, both (ih1 p hn hl) g2⟩
  have c9 : ∀ {n hks q e1}, n.data.tag = .question q false → S.Parts helpers n hks e1 → M2 n hks e1 → M1 n hks (.leave .other) e1 :=
    fun _ _ ih p hn hl => ⟨trivial, ih p hn hl⟩
  have c10 : ∀ {n hks j k v e1 e2}, n.data.tag = .ret → S.Parts helpers n hks e1 → n.kids[j]? = some k →
      S.Runs helpers k (handDown n hks j) (.val v) e2 → M2 n hks e1 → M1 k (handDown n hks j) (.val v) e2 →
      M1 n hks (.leave v) (e1 ++ e2) := by
    intro n l j k v e1 e2 _ _ h2 _ ih1 ih2 p hn hl
    obtain ⟨g1, g2⟩ := ih2 _ (kid_sub hn h2) fun hk h => hl hk (mem_handDown h)
    refine ⟨?_, both (ih1 p hn hl) g2⟩
    cases v with
    | other => trivial
    | res r => cases r <;> exact g1
  have c11 : ∀ {n hks e1}, n.data.tag = .ret → S.Parts helpers n hks e1 → M2 n hks e1 → M1 n hks (.leave .other) e1 :=
    fun _ _ ih p hn hl => ⟨trivial, ih p hn hl⟩
  exact ⟨fun h => Setting.Runs.rec (motive_1 := fun n l o evs _ => M1 n l o evs) (motive_2 := fun n l evs _ => M2 n l evs)
      (motive_3 := fun n l o evs _ => M1 n l o evs) c1 c2 c3 c4 c5 c6 c7 c8 c9 c10 c11 h,
    fun h => Setting.Parts.rec (motive_1 := fun n l o evs _ => M1 n l o evs) (motive_2 := fun n l evs _ => M2 n l evs)
      (motive_3 := fun n l o evs _ => M1 n l o evs) c1 c2 c3 c4 c5 c6 c7 c8 c9 c10 c11 h⟩

theorem Setting.Covers.call {p : List Nat} {f : RTree} (hp : i.tree.sub p = some f) {v : Val Ty} {evs : List (Report Ty)}
    (h : S.Call helpers f v evs) : (∀ e, v = .res (.err e) → Q e) ∧ ∀ r ∈ evs, R r := by
  have both : ∀ {e1 e2 : List (Report Ty)}, (∀ r ∈ e1, R r) → (∀ r ∈ e2, R r) → ∀ r ∈ e1 ++ e2, R r := by
    intro e1 e2 h1 h2 r hr
    rcases List.mem_append.1 hr with hr | hr
    · exact h1 r hr
    · exact h2 r hr
  cases h with
  | tail h1 h2 _ h4 =>
    obtain ⟨j, hj⟩ := List.getElem?_of_mem (List.mem_of_getLast? h2)
    obtain ⟨g1, g2⟩ := w.runs_parts.1 h4 _ (kid_sub hp hj) (by simp)
    refine ⟨?_, both (w.runs_parts.2 h1 p hp (by simp)) g2⟩
    rintro e rfl
    exact g1
  | leave h1 h2 h3 =>
    obtain ⟨j, hj⟩ := List.getElem?_of_mem h2
    obtain ⟨g1, g2⟩ := w.runs_parts.1 h3 _ (kid_sub hp hj) (by simp)
    refine ⟨?_, both (w.runs_parts.2 h1 p hp (by simp)) g2⟩
    rintro e rfl
    exact g1
  | unit h1 =>
    exact ⟨fun e he => (by cases he), w.runs_parts.2 h1 p hp (by simp)⟩

end

/-- C101 for arbitrary flavors whose methods report nothing of an `Ok` and give an error for an
error: the returned errors were given by nodes of the program, up to what `?` and hooks made of them,
and every report is made by a node of the program itself or by a hook that ran on such an
error. -/
theorem C101_any_flavor {Ty : Nat → Type} {P : Program Ty} {origin : P.Fn → FromItem}
    (hnode : ∀ f, (origin f).out.tree.sub (origin f).pos = some (P.node f))
    (hs : ∀ f hk, (origin f).out.Hooked hk → hk.Silent (P.setting f) (P.helpers f))
    {f : P.Fn} {v : Val Ty} {evs : List (Report Ty)} (h : P.Returns f v evs) :
    let errors := P.Stems fun f a b => ∃ q ev, (origin f).Ran (P.setting f) (P.helpers f) q a b ev
    (∀ e, v = .res (.err e) → errors f e) ∧
    ∀ r ∈ evs, (∃ g n u ev, (P.setting g).gives n u ev ∧ r ∈ ev) ∨
      ∃ g q e e' ev, errors g e ∧ (origin g).Ran (P.setting g) (P.helpers g) q e e' ev ∧ r ∈ ev := by
  obtain ⟨k, h⟩ := h
  induction k using Nat.strong_induction_on generalizing f v evs with
  | _ k ih =>
    refine Setting.Covers.call (S := P.depth k f) (helpers := P.helpers f) (i := (origin f).out) ?_ (hnode f) h
    have silent : ∀ hk, (origin f).out.Hooked hk → hk.Silent (P.depth k f) (P.helpers f) := by
      unfold HookData.Silent
      rw [(P.depth_world k f).1]
      exact hs f
    refine ⟨silent, ?_, ?_, ?_, ?_⟩
    · intro n e evs hg
      rcases Program.gives_depth hg with hg | ⟨g, k', rfl, h1, h2⟩
      · exact .given hg
      · exact .call h1 ((ih k' (Nat.lt_succ_self _) h2).1 e rfl)
    · intro n u evs hg r hr
      rcases Program.gives_depth hg with hg | ⟨g, k', rfl, h1, h2⟩
      · exact .inl ⟨f, n, u, evs, hg, hr⟩
      · exact (ih k' (Nat.lt_succ_self _) h2).2 r hr
    · intro e e' he hconv
      rw [(P.depth_world k f).2] at hconv
      exact .conv he hconv
    · intro hk sc e e' evs hk' he hd
      obtain ⟨q, n', hn, m, hm, rfl⟩ := hk'
      have st : (origin f).Ran (P.setting f) (P.helpers f) q e e' evs := by
        rw [(P.depth_world k f).1] at hd
        exact ⟨n', m, sc, hn, hm, hd⟩
      exact ⟨.hook he ⟨q, evs, st⟩, fun r hr => .inr ⟨f, q, e, e', evs, he, st, hr⟩⟩

theorem Program.Stems.mono {Ty : Nat → Type} {P : Program Ty} {step step' : P.Fn → Dyn Ty → Dyn Ty → Prop}
    (hstep : ∀ f a b, step f a b → step' f a b) {f : P.Fn} {e : Dyn Ty} (h : P.Stems step f e) : P.Stems step' f e := by
  induction h with
  | given h => exact .given h
  | call h _ ih => exact .call h ih
  | conv _ h ih => exact .conv ih h
  | hook _ h ih => exact .hook ih (hstep _ _ _ h)

/-- A function of an item under a built-in flavor, whatever is in it. -/
structure FromItem.Plain {Ty : Nat → Type} (c : FromItem) (flavor : String) (P : Program Ty) (f : P.Fn) : Prop where
  builtin : Builtin c.env c.args (P.helpers f) c.doc
  inPath : ∀ t ∈ P.helpers f, t.InPath
  flavor : c.doc.path.head? = some flavor
  root : rootSettings c.env c.args = .ok c.settings
  noMethod : NoMethodSet c.env c.item
  source : c.item.IsSource
  expand : hooqImpls c.env c.args c.item = .ok (c.uses, c.out)
  excerpts : ∀ hk, ((P.setting f).world hk).excerpt "excerpted_pretty_stringify" = some (c.pretty hk) ∧
    ((P.setting f).world hk).excerpt "one_line_stringify" = some (c.line hk)
  node : c.out.tree.sub c.pos = some (P.node f)

theorem FromItem.Fits.plain {Ty : Nat → Type} {c : FromItem} {flavor : String} {P : Program Ty} {f : P.Fn}
    (h : c.Fits flavor P f) : c.Plain flavor P f :=
  ⟨h.builtin, h.inPath, h.flavor, h.root, fun p n hn a ha => (h.binds p n hn a ha).method, h.source, h.expand, h.excerpts,
    h.node⟩

/-- The errors of a program. -/
def errorsIn {Ty : Nat → Type} (P : Program Ty) (origin : P.Fn → FromItem) (flavor : P.Fn → String) : P.Fn → Dyn Ty → Prop :=
  P.Stems fun f a b => ∃ q ev, (origin f).Step (flavor f) (P.setting f) q a b ev

/-- C101.  In a program whose functions are all hooked by built-in flavors, with whatever
attributes and code in them: every error that a function returns was given by a node of the
program, up to what `?` and the hooks made of it.  Every report is one that a node of
the program makes itself, or the report that the flavor makes, with the place of a target,
of an error that came up in this way.  So nothing is reported of what succeeds. -/
theorem C101_stems {Ty : Nat → Type} {P : Program Ty} {origin : P.Fn → FromItem} {flavor : P.Fn → String}
    (hw : ∀ f, (origin f).Plain (flavor f) P f)
    (hc : ∀ f, flavor f ∈ ["default", "log", "tracing", "anyhow", "eyre", "color_eyre"])
    {f : P.Fn} {v : Val Ty} {evs : List (Report Ty)} (h : P.Returns f v evs) :
    (∀ e, v = .res (.err e) → errorsIn P origin flavor f e) ∧
    ∀ r ∈ evs, (∃ g n u ev, (P.setting g).gives n u ev ∧ r ∈ ev) ∨
      ∃ g q e e' ev, errorsIn P origin flavor g e ∧ (origin g).Step (flavor g) (P.setting g) q e e' ev ∧ r ∈ ev := by
  have step : ∀ {f q a b ev}, (origin f).Ran (P.setting f) (P.helpers f) q a b ev →
      (origin f).Step (flavor f) (P.setting f) q a b ev := by
    rintro f q a b ev ⟨n', m, sc, hn, hm, hd⟩
    have w := hw f
    have hno : flavor f ≠ "hook" := by
      intro hd
      have hcf := hc f
      rw [hd] at hcf
      simp at hcf
    obtain ⟨d, up, sp, g1, g2, g3⟩ := hook_reports w.builtin w.inPath w.flavor hno w.root w.noMethod w.source w.expand
      (w.excerpts m.1).1 (w.excerpts m.1).2 hn hm hd
    exact ⟨d, up, n', m, sp, sc, g1, hn, hm, g2, g3⟩
  have mono : ∀ {f e}, P.Stems (fun f a b => ∃ q ev, (origin f).Ran (P.setting f) (P.helpers f) q a b ev) f e →
      errorsIn P origin flavor f e := fun h => h.mono fun f a b ⟨q, ev, h⟩ => ⟨q, ev, step h⟩
  obtain ⟨h1, h2⟩ := C101_any_flavor (origin := origin) (fun f => (hw f).node)
    (fun f => silent_builtin (hw f).builtin (hw f).inPath (hw f).flavor (hc f) (hw f).noMethod (hw f).source (hw f).expand
      (hw f).excerpts) h
  refine ⟨fun e he => mono (h1 e he), fun r hr => ?_⟩
  rcases h2 r hr with h | ⟨g, q, e, e', ev, k1, k2, k3⟩
  · exact .inl h
  · exact .inr ⟨g, q, e, e', ev, mono k1, step k2, k3⟩

theorem Program.Stems.given_some {Ty : Nat → Type} {P : Program Ty} {step : P.Fn → Dyn Ty → Dyn Ty → Prop} {f : P.Fn} {e : Dyn Ty}
    (h : P.Stems step f e) : ∃ g n e0 evs, (P.setting g).gives n (.res (.err e0)) evs := by
  induction h with
  | given h => exact ⟨_, _, _, _, h⟩
  | call _ _ ih => exact ih
  | conv _ _ ih => exact ih
  | hook _ _ ih => exact ih

/-- C101.  If nothing in the program fails, no function returns an error and no hook reports
anything. -/
theorem C101_silent {Ty : Nat → Type} {P : Program Ty} {origin : P.Fn → FromItem} {flavor : P.Fn → String}
    (hw : ∀ f, (origin f).Plain (flavor f) P f)
    (hc : ∀ f, flavor f ∈ ["default", "log", "tracing", "anyhow", "eyre", "color_eyre"])
    (hok : ∀ f n e evs, ¬ (P.setting f).gives n (.res (.err e)) evs)
    {f : P.Fn} {v : Val Ty} {evs : List (Report Ty)} (h : P.Returns f v evs) :
    (∀ e, v ≠ .res (.err e)) ∧ ∀ r ∈ evs, ∃ g n u ev, (P.setting g).gives n u ev ∧ r ∈ ev := by
  obtain ⟨h1, h2⟩ := C101_stems hw hc h
  have none : ∀ g e, ¬ errorsIn P origin flavor g e := fun g e he => by
    obtain ⟨g', n, e0, evs, h⟩ := he.given_some
    exact hok _ _ _ _ h
  refine ⟨fun e he => none _ _ (h1 e he), fun r hr => ?_⟩
  rcases h2 r hr with h | ⟨g, q, e, e', ev, he, -⟩
  · exact h
  · exact absurd he (none _ _)

/-- C101 under the default flavor, in a program that prints nothing itself: each printed
line shows the place of a target and an error that came up, up to what `?` made of it. -/
theorem C101_lines {Ty : Nat → Type} {P : Program Ty} {origin : P.Fn → FromItem}
    (hw : ∀ f, (origin f).Plain "default" P f) (hq : ∀ f n v ev, (P.setting f).gives n v ev → ev = [])
    {f : P.Fn} {v : Val Ty} {evs : List (Report Ty)} (h : P.Returns f v evs) :
    (∀ e, v = .res (.err e) → P.Stems (fun _ _ _ => False) f e) ∧
    ∀ r ∈ evs, ∃ g q e, P.Stems (fun _ _ _ => False) g e ∧ (origin g).Line (P.setting g) e q r := by
  obtain ⟨h1, h2⟩ := C101_stems (flavor := fun _ => "default") hw (by simp) h
  have plain : ∀ {g e}, errorsIn P origin (fun _ => "default") g e → P.Stems (fun _ _ _ => False) g e := by
    intro g e he
    induction he with
    | given h => exact .given h
    | call h _ ih => exact .call h ih
    | conv _ h ih => exact .conv ih h
    | hook _ h ih =>
      obtain ⟨q, ev, d, up, n', m, sp, sc, -, -, -, -, -, rfl, -⟩ := h
      simpa using ih
  refine ⟨fun e he => plain (h1 e he), fun r hr => ?_⟩
  rcases h2 r hr with ⟨g, n, u, ev, hg, hr⟩ | ⟨g, q, e, e', ev, he, ⟨d, up, n', m, sp, sc, g1, g2, g3, g4, rfl, rfl, -⟩, hr⟩
  · rw [hq _ _ _ _ hg] at hr
    simp at hr
  · refine ⟨g, q, _, plain he, d, up, n', m, sp, g1, g2, g3, g4, ?_⟩
    simpa [World.reports, Where.text, String.append_assoc] using hr

section
open Ex

/-- A program that meets the hypotheses and prints a line. -/
example : ∃ uses i' s, hooqImpls env [] levelled = .ok (uses, i') ∧
    (∃ ev, (Ex.one i').Returns () (.res (.err ⟨0, (5 : Nat)⟩)) [ev]) ∧
    (∀ f n v ev, ((Ex.one i').setting f).gives n v ev → ev = []) ∧
    ∀ f, FromItem.Plain ⟨env, [], s, levelled, i', uses, presetDocs[0], [],
      { ident := "f", output := result, text := "fn f () -> Result" }, fun _ => "  11> w?\n    |", fun _ => "w?"⟩
      "default" (Ex.one i') f := by
  obtain ⟨uses, i', s, h1, h2, h3⟩ := Ex.one_default
  exact ⟨uses, i', s, h1, h2, fun f n v ev h => h.2.1, fun f => (h3 f).plain⟩

/-- The same function where `w` and all else succeeds. -/
def Ex.fine (i' : Item) : Program (fun t => if t = 1 then String else Nat) :=
  { Ex.one i' with setting := fun _ => { Ex.setting with gives := fun _ v evs => v = .res (.ok ⟨0, (7 : Nat)⟩) ∧ evs = [] } }

/-- There are hooks in it, and it returns an `Ok`: the hypotheses of `C101_silent` hold. -/
example : ∃ uses i' s, hooqImpls env [] levelled = .ok (uses, i') ∧ (∃ p n, i'.tree.sub p = some n ∧ n.marks ≠ []) ∧
    (Ex.fine i').Returns () (.res (.ok ⟨0, (7 : Nat)⟩)) [] ∧
    (∀ f n e evs, ¬ ((Ex.fine i').setting f).gives n (.res (.err e)) evs) ∧
    ∀ f, FromItem.Plain ⟨env, [], s, levelled, i', uses, presetDocs[0], [],
      { ident := "f", output := result, text := "fn f () -> Result" }, fun _ => "  11> w?\n    |", fun _ => "w?"⟩
      "default" (Ex.fine i') f := by
  obtain ⟨uses, i', s, h1, h2, h3⟩ := Ex.one_default
  have hx : ∃ uses i' n k2, hooqImpls env [] levelled = .ok (uses, i') ∧ i'.tree.sub [0, 0] = some n ∧ n.marks ≠ [] ∧
      i'.tree.kids.getLast? = some k2 ∧ k2.marks = [] ∧ k2.data.rear = .closed ∧ k2.data.tag ≠ .ret ∧
      k2.data.edge.tail = some .fnTail := by
    refine ⟨_, _, _, _, rfl, rfl, ?_, rfl, rfl, rfl, ?_, rfl⟩ <;> intro h <;> cases h
  obtain ⟨uses2, i2, n, k2, g1, g2, g3, g4, g5, g6, g7, g8⟩ := hx
  obtain ⟨rfl, rfl⟩ : uses2 = uses ∧ i2 = i' := by simpa using g1.symm.trans h1
  refine ⟨uses2, i2, s, h1, ⟨_, n, g2, g3⟩, ⟨0, ?_⟩, fun f n e evs h => (by cases h.1), fun f => ?_⟩
  · have := Setting.Call.tail (S := (Ex.fine i2).depth 0 ()) (helpers := (Ex.fine i2).helpers ()) (f := i2.tree) .nil g4
      (.inl (by rw [g8]; simp)) (.closed g6 (.gives g7 .nil ⟨rfl, rfl⟩) (by rw [g5]; exact .nil))
    rw [List.append_nil, List.append_nil, List.append_nil] at this
    exact this
  · obtain ⟨k1, k2, k3, k4, k5, k6, k7, k8, k9⟩ := (h3 f).plain
    exact ⟨k1, k2, k3, k4, k5, k6, k7, k8, k9⟩

end

end Hooq
