import Verif.Spec.Trace
import Verif.Props.Run

/-!
# The trace of an error through several functions (C97)
-/

namespace Hooq

/-- Where a function of a program comes from. -/
structure FromItem where
  env : Env
  args : List Meta
  settings : Settings
  item : Item
  out : Item
  uses : List Path
  doc : PresetDoc
  pos : List Nat
  sig : Sig
  pretty : HookData → String
  line : HookData → String

/-- A function that is hooked throughout by a built-in flavor, as in C96. -/
structure FromItem.Fits {Ty : Nat → Type} (c : FromItem) (flavor : String) (P : Program Ty) (f : P.Fn) : Prop where
  builtin : Builtin c.env c.args (P.helpers f) c.doc
  inPath : ∀ t ∈ P.helpers f, t.InPath
  flavor : c.doc.path.head? = some flavor
  root : rootSettings c.env c.args = .ok c.settings
  binds : c.item.OnlyBinds c.env
  left : c.item.NoneLeft
  source : c.item.IsSource
  expand : hooqImpls c.env c.args c.item = .ok (c.uses, c.out)
  excerpts : ∀ hk, ((P.setting f).world hk).excerpt "excerpted_pretty_stringify" = some (c.pretty hk) ∧
    ((P.setting f).world hk).excerpt "one_line_stringify" = some (c.line hk)
  errs : (P.setting f).Errs
  calls : ∀ n g, P.calls f n g → n.data.rear = .closed ∧ endsIn n.bare.callee ["Ok"] = false
  node : c.out.tree.sub c.pos = some (P.node f)
  fn : ∀ k ∈ (P.node f).kids, k.data.edge.fn = some (.fn c.sig)
  result : c.sig.output.EndsIn ["Result"]
  ending : ∀ k, (P.node f).kids.getLast? = some k → k.data.edge.tail ≠ none ∨ k.data.tag = .mac →
    k.data.edge.tail = some .fnTail ∧ k.data.mode ≠ .untouched

/-- A hook at the position `q` of the item makes `e1` of the error `e0` and reports `ev`, as the
flavor says, with the place of the target there. -/
def FromItem.Step {Ty : Nat → Type} (c : FromItem) (flavor : String) (S : Setting Ty) (q : List Nat) (e0 e1 : Dyn Ty)
    (ev : List (Report Ty)) : Prop :=
  ∃ d up n' m sp sc, c.item.chain q = some (d :: up) ∧ c.out.tree.sub q = some n' ∧ m ∈ n'.marks ∧
    IsAnchor (d :: up) n' m.1.kind sp ∧
    let level := (nearest (bindingOf c.env "level") (targetUp m.1.kind (d :: up))).or (c.settings.bindings.get? "level")
    let x := (S.world m.1).reports sc flavor level ⟨sp.file, sp.line, sp.col⟩ (c.pretty m.1) (c.line m.1) e0
    ev = x.2 ∧ e1 = x.1 ∧ (flavor = "log" ∨ flavor = "tracing" → level ≠ none)

/-- What a function shows of an error that its node `n` gives: first a hook on this node
reports, then perhaps others. -/
def FromItem.Shown {Ty : Nat → Type} (c : FromItem) (flavor : String) (S : Setting Ty) (n : RTree) (e0 e : Dyn Ty)
    (evs : List (Report Ty)) : Prop :=
  ∃ q e1, c.out.tree.sub q = some n ∧
    ShownBy (c.Step flavor S q) (fun a b ev => ∃ q', c.Step flavor S q' a b ev) e0 e1 evs ∧ (e = e1 ∨ S.conv e1 e)

theorem Program.depth_world {Ty : Nat → Type} (P : Program Ty) (k : Nat) (f : P.Fn) :
    (P.depth k f).world = (P.setting f).world ∧ (P.depth k f).conv = (P.setting f).conv := by
  cases k <;> exact ⟨rfl, rfl⟩

theorem Program.gives_depth {Ty : Nat → Type} {P : Program Ty} {f : P.Fn} {k : Nat} {n : RTree} {v : Val Ty} {evs : List (Report Ty)} (h : (P.depth k f).gives n v evs) :
    (P.setting f).gives n v evs ∨
      ∃ g k', k = k' + 1 ∧ P.calls f n g ∧ (P.depth k' g).Call (P.helpers g) (P.node g) v evs := by
  cases k with
  | zero => exact .inl h
  | succ k =>
    rcases h with h | ⟨g, h1, h2⟩
    · exact .inl h
    · exact .inr ⟨g, k, rfl, h1, h2⟩

section
variable {Ty : Nat → Type} {P : Program Ty} {f : P.Fn} {c : FromItem} {flavor : String} (w : c.Fits flavor P f)
include w

theorem FromItem.Fits.step (hno : flavor ≠ "hook") {k : Nat} {q : List Nat} {n' : RTree} (hn : c.out.tree.sub q = some n')
    {m : HookData × RTree} (hm : m ∈ n'.marks) {sc : Scope Ty} {e0 e1 : Dyn Ty} {ev : List (Report Ty)}
    (hd : Does ((P.depth k f).world m.1) (P.helpers f) (Locals.ofScope sc) m.1.toks (.err e0) (.err e1) ev) :
    c.Step flavor (P.setting f) q e0 e1 ev := by
  rw [(P.depth_world k f).1] at hd
  obtain ⟨d, up, sp, g1, g2, g3⟩ := hook_reports w.builtin w.inPath w.flavor hno w.root
    (fun p n hn a ha => (w.binds p n hn a ha).method) w.source w.expand (w.excerpts m.1).1 (w.excerpts m.1).2 hn hm hd
  exact ⟨d, up, n', m, sp, sc, g1, hn, hm, g2, g3⟩

theorem FromItem.Fits.steps (hno : flavor ≠ "hook") {k : Nat} {hks : List HookData} (hk : ∀ x ∈ hks, c.out.Hooked x)
    {e1 e2 : Dyn Ty} {ev2 : List (Report Ty)} (h : (P.depth k f).Passes (P.helpers f) hks e1 e2 ev2) :
    ∀ {first : Dyn Ty → Dyn Ty → List (Report Ty) → Prop} {e0 : Dyn Ty} {ev1 : List (Report Ty)},
      ShownBy first (fun a b ev => ∃ q', c.Step flavor (P.setting f) q' a b ev) e0 e1 ev1 →
      ShownBy first (fun a b ev => ∃ q', c.Step flavor (P.setting f) q' a b ev) e0 e2 (ev1 ++ ev2) := by
  induction h with
  | nil => intro first e0 ev1 h; simpa using h
  | cons h1 h2 ih =>
    intro first e0 ev1 h
    rw [← List.append_assoc]
    obtain ⟨q', n', g1, m, g2, rfl⟩ := hk _ List.mem_cons_self
    exact ih (fun x hx => hk x (List.mem_cons_of_mem _ hx)) (.more h ⟨q', w.step hno g1 g2 h1⟩)

theorem FromItem.Fits.shown (hno : flavor ≠ "hook") {k : Nat} {q : List Nat} {n : RTree} (hn : c.out.tree.sub q = some n)
    (hne : n.marks ≠ []) {hks : List HookData} (hk : ∀ x ∈ hks, c.out.Hooked x) {e0 e1 e : Dyn Ty} {evs : List (Report Ty)}
    (h : (P.depth k f).Passes (P.helpers f) (n.marks.map Prod.fst ++ hks) e0 e1 evs)
    (he : e = e1 ∨ (P.depth k f).conv e1 e) : c.Shown flavor (P.setting f) n e0 e evs := by
  rw [(P.depth_world k f).2] at he
  refine ⟨q, e1, hn, ?_, he⟩
  obtain ⟨m, ms, hms⟩ := List.exists_cons_of_ne_nil hne
  rw [hms, List.map_cons, List.cons_append] at h
  cases h with
  | cons h1 h2 =>
    refine w.steps hno ?_ h2 (.one (w.step hno hn (by simp [hms]) h1))
    intro x hx
    rcases List.mem_append.1 hx with hx | hx
    · obtain ⟨m', hm', rfl⟩ := List.mem_map.1 hx
      exact ⟨q, n, hn, m', by simp [hms, hm'], rfl⟩
    · exact hk x hx

end

/-- An error that the node `n` gives passes the hooks on this node, of which there are some,
and then perhaps some that were handed down to it. -/
def FromItem.Passed {Ty : Nat → Type} (c : FromItem) (S : Setting Ty) (helpers : List TT) (n : RTree) (e0 e : Dyn Ty)
    (evs : List (Report Ty)) : Prop :=
  ∃ q hks e1, c.out.tree.sub q = some n ∧ n.marks ≠ [] ∧ (∀ hk ∈ hks, c.out.Handed hk) ∧
    S.Passes helpers (n.marks.map Prod.fst ++ hks) e0 e1 evs ∧ (e = e1 ∨ S.conv e1 e)

theorem Setting.Passes.congr {Ty : Nat → Type} {S S' : Setting Ty} {helpers : List TT} (hw : S.world = S'.world) {hks : List HookData}
    {e0 e1 : Dyn Ty} {evs : List (Report Ty)} (h : S.Passes helpers hks e0 e1 evs) : S'.Passes helpers hks e0 e1 evs := by
  induction h with
  | nil => exact .nil
  | cons h1 _ ih =>
    rw [hw] at h1
    exact .cons h1 ih

/-- A function that is hooked throughout, by whatever flavor and methods, as in `C96_any_flavor`. -/
structure FromItem.Observed {Ty : Nat → Type} (c : FromItem) (P : Program Ty) (f : P.Fn) : Prop where
  watched : Watched c.env c.settings c.args c.item c.out
  keeps : ∀ hk, c.out.Hooked hk → hk.Keeps (P.setting f) (P.helpers f)
  errs : (P.setting f).Errs
  calls : ∀ n g, P.calls f n g → n.data.rear = .closed ∧ endsIn n.bare.callee ["Ok"] = false
  node : c.out.tree.sub c.pos = some (P.node f)
  fn : ∀ k ∈ (P.node f).kids, k.data.edge.fn = some (.fn c.sig)
  result : c.sig.output.EndsIn ["Result"]
  ending : ∀ k, (P.node f).kids.getLast? = some k → k.data.edge.tail ≠ none ∨ k.data.tag = .mac →
    k.data.edge.tail = some .fnTail ∧ k.data.mode ≠ .untouched

theorem FromItem.Fits.observed {Ty : Nat → Type} {P : Program Ty} {f : P.Fn} {c : FromItem} {flavor : String}
    (w : c.Fits flavor P f) (hc : flavor ∈ ["default", "log", "tracing", "anyhow", "eyre", "color_eyre"]) : c.Observed P f := by
  have he : c.doc.path ≠ ["empty"] := by
    intro hd
    have := w.flavor
    rw [hd] at this
    rw [← Option.some.inj this] at hc
    simp at hc
  exact ⟨Watched.builtin w.builtin he w.root w.expand w.binds w.left,
    keeps_builtin w.builtin w.inPath w.flavor hc w.binds w.source w.expand w.excerpts, w.errs, w.calls, w.node, w.fn, w.result,
    w.ending⟩

theorem FromItem.Observed.passed {Ty : Nat → Type} {P : Program Ty} {origin : P.Fn → FromItem}
    (hw : ∀ f, (origin f).Observed P f) {f : P.Fn} {e : Dyn Ty} {evs : List (Report Ty)} (h : P.Returns f (.res (.err e)) evs) :
    ∃ pre t, evs = pre ++ t ∧ P.Trace (fun f => (origin f).Passed (P.setting f) (P.helpers f)) f e t := by
  obtain ⟨k, h⟩ := h
  induction k using Nat.strong_induction_on generalizing f e evs with
  | _ k ih =>
    have w := hw f
    have errs : (P.depth k f).Errs := by
      intro n e evs h
      rcases Program.gives_depth h with h | ⟨g, _, -, h, -⟩
      · exact w.errs n e evs h
      · exact w.calls n g h
    have keeps : ∀ hk, (origin f).out.Hooked hk → hk.Keeps (P.depth k f) (P.helpers f) := by
      unfold HookData.Keeps
      rw [(P.depth_world k f).1]
      exact w.keeps
    obtain ⟨pre, ev0, ev1, q, n, hks, e0, e1, rfl, hq, hg, hne, hhk, hpass, hconv⟩ :=
      call_err w.watched errs keeps w.result w.node w.fn
        (fun k hk hm hd => by
          obtain ⟨g1, g2⟩ := w.ending k hk hm
          rcases hd with hd | hd
          · exact absurd g1 hd
          · exact absurd hd g2) h
    rw [(P.depth_world k f).2] at hconv
    have hsh : (origin f).Passed (P.setting f) (P.helpers f) n e0 e ev1 :=
      ⟨q, hks, e1, hq, hne, hhk, hpass.congr (P.depth_world k f).1, hconv⟩
    rcases Program.gives_depth hg with hg | ⟨g, k', rfl, h1, h2⟩
    · exact ⟨pre, _, rfl, .origin hg hsh⟩
    · obtain ⟨pre', t, rfl, ht⟩ := ih k' (Nat.lt_succ_self _) h2
      exact ⟨pre ++ pre', _, by simp, .through h1 ht hsh⟩

theorem Program.Trace.mono {Ty : Nat → Type} {P : Program Ty}
    {shown shown' : P.Fn → RTree → Dyn Ty → Dyn Ty → List (Report Ty) → Prop} {f : P.Fn} {e : Dyn Ty} {t : List (Report Ty)}
    (h : ∀ f n e0 e evs, shown f n e0 e evs → shown' f n e0 e evs) (ht : P.Trace shown f e t) : P.Trace shown' f e t := by
  induction ht with
  | origin h1 h2 => exact .origin h1 (h _ _ _ _ _ h2)
  | through h1 _ h2 ih => exact .through h1 ih (h _ _ _ _ _ h2)

/-- A hook at the position `q` of the item ran on the error `e0` and made `e1` of it. -/
def FromItem.Ran {Ty : Nat → Type} (c : FromItem) (S : Setting Ty) (helpers : List TT) (q : List Nat) (e0 e1 : Dyn Ty)
    (ev : List (Report Ty)) : Prop :=
  ∃ n m sc, c.out.tree.sub q = some n ∧ m ∈ n.marks ∧ Does (S.world m.1) helpers (Locals.ofScope sc) m.1.toks (.err e0) (.err e1) ev

/-- C97 for arbitrary flavors and methods, under the conditions of `C96_any_flavor`: for each
function that the error passed, a hook on the call that returned it ran on it, and perhaps others
after it. -/
theorem C97_any_flavor {Ty : Nat → Type} {P : Program Ty} {origin : P.Fn → FromItem}
    (hw : ∀ f, (origin f).Observed P f) {f : P.Fn} {e : Dyn Ty} {evs : List (Report Ty)} (h : P.Returns f (.res (.err e)) evs) :
    ∃ pre t, evs = pre ++ t ∧ P.Trace (fun f n e0 e evs => ∃ q e1, (origin f).out.tree.sub q = some n ∧
      ShownBy ((origin f).Ran (P.setting f) (P.helpers f) q) (fun a b ev => ∃ q', (origin f).Ran (P.setting f) (P.helpers f) q' a b ev)
        e0 e1 evs ∧ (e = e1 ∨ (P.setting f).conv e1 e)) f e t := by
  obtain ⟨pre, t, h1, h2⟩ := FromItem.Observed.passed hw h
  refine ⟨pre, t, h1, h2.mono ?_⟩
  rintro f n e0 e evs ⟨q, hks, e1, hq, hne, hhk, hpass, he⟩
  refine ⟨q, e1, hq, ?_, he⟩
  clear he
  obtain ⟨m, ms, hms⟩ := List.exists_cons_of_ne_nil hne
  have hall : ∀ x ∈ ms.map Prod.fst ++ hks, (origin f).out.Hooked x := by
    intro x hx
    rcases List.mem_append.1 hx with hx | hx
    · obtain ⟨m', hm', rfl⟩ := List.mem_map.1 hx
      exact ⟨q, n, hq, m', by simp [hms, hm'], rfl⟩
    · exact (hhk x hx).hooked
  rw [hms, List.map_cons, List.cons_append] at hpass
  cases hpass with
  | @cons _ _ sc _ a _ ev1 ev2 g1 g2 =>
    have first : ShownBy ((origin f).Ran (P.setting f) (P.helpers f) q)
        (fun a b ev => ∃ q', (origin f).Ran (P.setting f) (P.helpers f) q' a b ev) e0 a ev1 :=
      .one ⟨n, m, sc, hq, by simp [hms], g1⟩
    clear g1 hms hne hhk
    generalize ms.map Prod.fst ++ hks = l at g2 hall
    induction g2 generalizing ev1 with
    | nil => simpa using first
    | @cons k l sc a b c ev evs k1 k2 ih =>
      rw [← List.append_assoc]
      obtain ⟨q', n', g1, m', g2, rfl⟩ := hall _ List.mem_cons_self
      exact ih (.more first ⟨q', n', m', sc, g1, g2, k1⟩) (fun x hx => hall x (List.mem_cons_of_mem _ hx))

/-- C97.  In a program whose functions are all hooked by built-in flavors, all that is
reported before a function returns an error ends with the trace of this error: what was
reported where it came from, then, for each function it passed, from the inside to the
outside, the report of a hook on the call that returned it (and perhaps of further hooks), with
nothing in between. -/
theorem C97_trace {Ty : Nat → Type} {P : Program Ty} {origin : P.Fn → FromItem} {flavor : P.Fn → String}
    (hw : ∀ f, (origin f).Fits (flavor f) P f)
    (hc : ∀ f, flavor f ∈ ["default", "log", "tracing", "anyhow", "eyre", "color_eyre"])
    {f : P.Fn} {e : Dyn Ty} {evs : List (Report Ty)} (h : P.Returns f (.res (.err e)) evs) :
    ∃ pre t, evs = pre ++ t ∧ P.Trace (fun f => (origin f).Shown (flavor f) (P.setting f)) f e t := by
  obtain ⟨pre, t, h1, h2⟩ := FromItem.Observed.passed (fun f => (hw f).observed (hc f)) h
  refine ⟨pre, t, h1, h2.mono ?_⟩
  rintro f n e0 e evs ⟨q, hks, e1, hq, hne, hhk, hpass, he⟩
  have hno : flavor f ≠ "hook" := by
    intro hd
    have := hc f
    rw [hd] at this
    simp at this
  exact (hw f).shown (k := 0) hno hq hne (fun x hx => (hhk x hx).hooked) hpass he

/-! ## What the default flavor prints -/

theorem ShownBy.mono {Ty : Nat → Type} {first later first' later' : Dyn Ty → Dyn Ty → List (Report Ty) → Prop} {e0 e : Dyn Ty}
    {evs : List (Report Ty)} (h1 : ∀ a b ev, first a b ev → first' a b ev) (h2 : ∀ a b ev, later a b ev → later' a b ev)
    (h : ShownBy first later e0 e evs) : ShownBy first' later' e0 e evs := by
  induction h with
  | one h => exact .one (h1 _ _ _ h)
  | more _ h ih => exact .more ih (h2 _ _ _ h)

/-- A line that the default flavor prints for an error at the position `q` of the item. -/
def FromItem.Line {Ty : Nat → Type} (c : FromItem) (S : Setting Ty) (e0 : Dyn Ty) (q : List Nat) (r : Report Ty) : Prop :=
  ∃ d up n' m sp, c.item.chain q = some (d :: up) ∧ c.out.tree.sub q = some n' ∧ m ∈ n'.marks ∧
    IsAnchor (d :: up) n' m.1.kind sp ∧
    r = .printed ("[" ++ sp.file ++ ":" ++ toString sp.line ++ ":" ++ toString sp.col ++ "] " ++ (S.world m.1).debug e0 ++
      "\n" ++ c.pretty m.1 ++ "\n")

/-- C97 under the default flavor: the trace consists of lines, for each function one with the
place of the call that returned the error to it, and perhaps more; all show the error as
the call returned it. -/
theorem C97_printed {Ty : Nat → Type} {P : Program Ty} {origin : P.Fn → FromItem}
    (hw : ∀ f, (origin f).Fits "default" P f)
    {f : P.Fn} {e : Dyn Ty} {evs : List (Report Ty)} (h : P.Returns f (.res (.err e)) evs) :
    ∃ pre t, evs = pre ++ t ∧ P.Trace (fun f n e0 e lines =>
      ∃ q first rest, (origin f).out.tree.sub q = some n ∧ lines = first :: rest ∧
        (origin f).Line (P.setting f) e0 q first ∧ (∀ r ∈ rest, ∃ q', (origin f).Line (P.setting f) e0 q' r) ∧
        (e = e0 ∨ (P.setting f).conv e0 e)) f e t := by
  obtain ⟨pre, t, h1, h2⟩ := C97_trace (flavor := fun _ => "default") hw (by simp) h
  refine ⟨pre, t, h1, h2.mono ?_⟩
  rintro f n e0 e evs ⟨q, e1, hq, hs, he⟩
  have step : ∀ {q a b ev}, (origin f).Step "default" (P.setting f) q a b ev →
      a = b ∧ ∃ r, ev = [r] ∧ (origin f).Line (P.setting f) a q r := by
    rintro q a b ev ⟨d, up, n', m, sp, sc, g1, g2, g3, g4, rfl, rfl, -⟩
    refine ⟨by simp, _, ?_, d, up, n', m, sp, g1, g2, g3, g4, rfl⟩
    simp [World.reports, Where.text, String.append_assoc]
  have : e0 = e1 ∧ ∃ first rest, evs = first :: rest ∧ (origin f).Line (P.setting f) e0 q first ∧
      ∀ r ∈ rest, ∃ q', (origin f).Line (P.setting f) e0 q' r := by
    clear he
    induction hs with
    | one h =>
      obtain ⟨rfl, r, rfl, hr⟩ := step h
      exact ⟨rfl, r, [], rfl, hr, by simp⟩
    | more _ h ih =>
      obtain ⟨rfl, first, rest, rfl, g1, g2⟩ := ih
      obtain ⟨q', h⟩ := h
      obtain ⟨rfl, r, rfl, hr⟩ := step h
      refine ⟨rfl, first, rest ++ [r], rfl, g1, fun x hx => ?_⟩
      rcases List.mem_append.1 hx with hx | hx
      · exact g2 x hx
      · rw [List.mem_singleton] at hx
        subst hx
        exact ⟨q', hr⟩
  obtain ⟨rfl, first, rest, g1, g2, g3⟩ := this
  exact ⟨q, first, rest, hq, g1, g2, g3, he⟩

/-! ## What anyhow and eyre put in front -/

/-- A text that `anyhow` or `eyre` puts in front of an error at the position `q` of the item. -/
def FromItem.Context (c : FromItem) (q : List Nat) (text : String) : Prop :=
  ∃ d up n' m sp, c.item.chain q = some (d :: up) ∧ c.out.tree.sub q = some n' ∧ m ∈ n'.marks ∧
    IsAnchor (d :: up) n' m.1.kind sp ∧
    text = "[" ++ sp.file ++ ":" ++ toString sp.line ++ ":" ++ toString sp.col ++ "]\n" ++ c.pretty m.1

/-- C97 under `anyhow` and `eyre`: nothing is reported, and the returned error is the one that came
up first with a text in front of it for each function that it passed (and perhaps more), where the
first is for the call that returned it. -/
theorem C97_context {Ty : Nat → Type} {P : Program Ty} {origin : P.Fn → FromItem} {flavor : P.Fn → String}
    (hw : ∀ f, (origin f).Fits (flavor f) P f) (hc : ∀ f, flavor f ∈ ["anyhow", "eyre", "color_eyre"])
    {wrap : P.Fn → String → Dyn Ty → Dyn Ty}
    (hwrap : ∀ f hk, ((P.setting f).world hk).wrap (if flavor f = "anyhow" then "with_context" else "wrap_err_with") = wrap f)
    {f : P.Fn} {e : Dyn Ty} {evs : List (Report Ty)} (h : P.Returns f (.res (.err e)) evs) :
    ∃ pre t, evs = pre ++ t ∧ P.Trace (fun f n e0 e lines => lines = [] ∧
      ∃ q first rest, (origin f).out.tree.sub q = some n ∧ (origin f).Context q first ∧
        (∀ x ∈ rest, ∃ q', (origin f).Context q' x) ∧
        let e1 := (first :: rest).foldl (fun e x => wrap f x e) e0
        (e = e1 ∨ (P.setting f).conv e1 e)) f e t := by
  obtain ⟨pre, t, h1, h2⟩ := C97_trace hw (fun f => by
    have := hc f
    simp only [List.mem_cons, List.not_mem_nil, or_false] at this ⊢
    tauto) h
  refine ⟨pre, t, h1, h2.mono ?_⟩
  rintro f n e0 e evs ⟨q, e1, hq, hs, he⟩
  have step : ∀ {q a b ev}, (origin f).Step (flavor f) (P.setting f) q a b ev →
      ev = [] ∧ ∃ x, b = wrap f x a ∧ (origin f).Context q x := by
    rintro q a b ev ⟨d, up, n', m, sp, sc, g1, g2, g3, g4, rfl, rfl, -⟩
    have hw := hwrap f m.1
    have hf := hc f
    simp only [List.mem_cons, List.not_mem_nil, or_false] at hf
    rcases hf with hf | hf | hf <;> rw [hf] at hw ⊢ <;>
      simp only [World.reports, String.reduceEq, if_false, if_true] at hw ⊢ <;>
      exact ⟨trivial, _, congrFun (congrFun hw _) _, d, up, n', m, sp, g1, g2, g3, g4, by simp [Where.text, String.append_assoc]⟩
  have : evs = [] ∧ ∃ first rest, e1 = (first :: rest).foldl (fun e x => wrap f x e) e0 ∧ (origin f).Context q first ∧
      ∀ x ∈ rest, ∃ q', (origin f).Context q' x := by
    clear he
    induction hs with
    | one h =>
      obtain ⟨rfl, x, rfl, hx⟩ := step h
      exact ⟨rfl, x, [], rfl, hx, by simp⟩
    | more _ h ih =>
      obtain ⟨rfl, first, rest, rfl, g1, g2⟩ := ih
      obtain ⟨q', h⟩ := h
      obtain ⟨rfl, x, rfl, hx⟩ := step h
      refine ⟨rfl, first, rest ++ [x], by simp, g1, fun y hy => ?_⟩
      rcases List.mem_append.1 hy with hy | hy
      · exact g2 y hy
      · rw [List.mem_singleton] at hy
        subst hy
        exact ⟨q', hx⟩
  obtain ⟨rfl, first, rest, rfl, g2, g3⟩ := this
  exact ⟨rfl, q, first, rest, hq, g2, g3, he⟩

/-! ## A program -/

section
open Ex

/-- Two functions like `Ex.levelled`, of which `true` calls `false`, where the error 5 comes
from. -/
def Ex.two (i' : Item) : Program (fun t => if t = 1 then String else Nat) :=
  { Fn := Bool
    node := fun _ => i'.tree
    helpers := fun _ => [tkId "helpers"]
    setting := fun f => if f then { Ex.setting with gives := fun _ _ _ => False } else Ex.setting
    calls := fun f n g => f = true ∧ g = false ∧ n.data.rear = .closed ∧ endsIn n.bare.callee ["Ok"] = false }

/-- The error reaches the caller with two reports, and the program meets the hypotheses of
C97. -/
example : ∃ i' s, hooqImpls env logArgs levelled = .ok ([], i') ∧
    (∃ ev1 ev2, (Ex.two i').Returns true (.res (.err ⟨0, (5 : Nat)⟩)) [ev1, ev2]) ∧
    ∀ f, FromItem.Fits ⟨env, logArgs, s, levelled, i', [], logDoc ["warn"] "Warn", [],
      { ident := "f", output := result, text := "fn f () -> Result" }, fun _ => "  11> w?\n    |", fun _ => "w?"⟩
      "log" (Ex.two i') f := by
  obtain ⟨i', ev1, h1, h2⟩ := levelled_run
  obtain ⟨s, hs⟩ := rootSettings_of_ok h1
  refine ⟨i', s, h1, ?_, fun f => ?_⟩
  · obtain ⟨i2, ev2, h3, h4⟩ := Ex.levelled_runs (S := (Ex.two i').depth 1 true) (ev0 := [ev1]) rfl (fun _ => rfl)
      fun n g1 g2 => .inr ⟨false, ⟨rfl, rfl, g1, g2⟩, h2⟩
    obtain rfl : i2 = i' := by simpa using h3.symm.trans h1
    exact ⟨ev1, ev2, 1, h4⟩
  · obtain ⟨k1, k2, h4, h5, h6, h7, h8⟩ := levelled_shape h1
    refine ⟨logged_builtin, by simp [Ex.two, TT.InPath, tkId], rfl, hs, levelled_binds, levelled_left, levelled_source, h1, ?_,
      ?_, fun n g h => h.2.2, rfl, ?_, ⟨_, _, rfl, rfl, by decide⟩, ?_⟩
    · cases f <;> exact fun _ => ⟨rfl, rfl⟩
    · cases f
      · exact setting_errs
      · exact fun _ _ _ h => h.elim
    · show ∀ k ∈ i'.tree.kids, _
      rw [h4]
      simp [h5, h6]
    · show ∀ k, i'.tree.kids.getLast? = some k → _
      rw [h4]
      rintro k hk -
      simp at hk
      subst hk
      exact ⟨h7, h8⟩

/-- What the expansion of `Ex.levelled` looks like. -/
structure Ex.LevelledOut (args : List Meta) (uses : List Path) (i' : Item) (k n : RTree) (m : HookData × RTree) : Prop where
  expand : hooqImpls env args levelled = .ok (uses, i')
  kid : k ∈ i'.tree.kids
  operand : k.kids[0]? = some n
  marks : n.marks = [m]
  sub : i'.tree.sub [0, 0] = some n
  question : k.data.tag = .question (sp 11 9) false
  closed : k.data.rear = .closed
  closed' : n.data.rear = .closed
  ret : n.data.tag ≠ .ret
  notOk : endsIn n.bare.callee ["Ok"] = false
  shape : ∃ k2, i'.tree.kids = [k, k2] ∧
    k.data.edge.fn = some (.fn { ident := "f", output := result, text := "fn f () -> Result" }) ∧
    k2.data.edge.fn = some (.fn { ident := "f", output := result, text := "fn f () -> Result" }) ∧
    k2.data.edge.tail = some .fnTail ∧ k2.data.mode ≠ .untouched

theorem Ex.LevelledOut.run {args : List Meta} {uses : List Path} {i' : Item} {k n : RTree} {m : HookData × RTree}
    (o : Ex.LevelledOut args uses i' k n m) {S : Setting (fun t => if t = 1 then String else Nat)}
    (hw : S.world = fun _ => Ex.world) (hconv : ∀ e, S.conv e e)
    {e0 e1 : Dyn fun t => if t = 1 then String else Nat} {ev0 ev1 : List (Report fun t => if t = 1 then String else Nat)}
    (hg : S.gives n (.res (.err e0)) ev0) (hm : m.1.mode = .insert)
    (hd : Does Ex.world [tkId "helpers"] (Locals.ofScope fun _ => none) m.1.toks (.err e0) (.err e1) ev1) :
    S.Call [tkId "helpers"] i'.tree (.res (.err e1)) (ev0 ++ ev1) := by
  have e0 : S.Runs [tkId "helpers"] n (handDown k [] 0) (.val (.res (.err e1))) (([] ++ ev0) ++ (ev1 ++ [])) := by
    refine .closed o.closed' (.gives o.ret .nil hg) ?_
    have : handDown k [] 0 = [] := by simp [handDown]
    rw [o.marks, this]
    exact .cons (.res (fun _ => none) hm (by rw [hw]; exact hd)) .nil
  have := Setting.Call.leave (f := i'.tree) (.nil (S := S)) o.kid
    (.closed o.closed (.question o.question .nil o.operand e0 (hconv _)) .leave)
  simpa using this

/-- The program that consists of this function. -/
def Ex.one (i' : Item) : Program (fun t => if t = 1 then String else Nat) :=
  { Fn := Unit
    node := fun _ => i'.tree
    helpers := fun _ => [tkId "helpers"]
    setting := fun _ => Ex.setting
    calls := fun _ _ _ => False }

theorem Ex.LevelledOut.fits {args : List Meta} {uses : List Path} {i' : Item} {k n : RTree} {m : HookData × RTree}
    (o : Ex.LevelledOut args uses i' k n m) {doc : PresetDoc} (hp : Builtin env args [tkId "helpers"] doc) {flavor : String}
    (hx : doc.path.head? = some flavor) {s : Settings} (hs : rootSettings env args = .ok s) (f : Unit) :
    FromItem.Fits ⟨env, args, s, levelled, i', uses, doc, [],
      { ident := "f", output := result, text := "fn f () -> Result" }, fun _ => "  11> w?\n    |", fun _ => "w?"⟩
      flavor (Ex.one i') f := by
  obtain ⟨k2, h4, h5, h6, h7, h8⟩ := o.shape
  refine ⟨hp, by simp [Ex.one, TT.InPath, tkId], hx, hs, levelled_binds, levelled_left, levelled_source, o.expand,
    fun _ => ⟨rfl, rfl⟩, setting_errs, fun n g h => h.elim, rfl, ?_, ⟨_, _, rfl, rfl, by decide⟩, ?_⟩
  · show ∀ k ∈ i'.tree.kids, _
    rw [h4]
    simp [h5, h6]
  · show ∀ k, i'.tree.kids.getLast? = some k → _
    rw [h4]
    rintro k hk -
    simp at hk
    subst hk
    exact ⟨h7, h8⟩

theorem Ex.default_builtin : Builtin env [] [tkId "helpers"] presetDocs[0] := by
  refine ⟨by simp [presetDocs], rfl, by simp [NoDollars, TT.NoDollar, tkId], ?_⟩
  have h : Reaches (presetFlavors false [tkId "helpers"] ⟨true, true, true, true⟩) ["default"] _ :=
    (inner_iff (uniq_presets _ _ _) _ _).1 rfl
  exact ⟨_, false, ⟨true, true, true, true⟩, _, rfl, uniq_presets _ _ _, h, h⟩

/-- Under the default flavor one line is printed. -/
theorem Ex.one_default : ∃ uses i' s, hooqImpls env [] levelled = .ok (uses, i') ∧
    (∃ ev, (Ex.one i').Returns () (.res (.err ⟨0, (5 : Nat)⟩)) [ev]) ∧
    ∀ f, FromItem.Fits ⟨env, [], s, levelled, i', uses, presetDocs[0], [],
      { ident := "f", output := result, text := "fn f () -> Result" }, fun _ => "  11> w?\n    |", fun _ => "w?"⟩
      "default" (Ex.one i') f := by
  have hp := default_builtin
  have o : ∃ uses i' k n m, Ex.LevelledOut [] uses i' k n m := by
    refine ⟨_, _, _, _, _, rfl, List.mem_cons_self, rfl, rfl, rfl, rfl, rfl, rfl, ?_, rfl, _, rfl, rfl, rfl, rfl, ?_⟩ <;>
      intro h <;> cases h
  obtain ⟨uses, i', k, n, m, o⟩ := o
  obtain ⟨s, hs⟩ := rootSettings_of_ok o.expand
  have hh : ∀ t ∈ [tkId "helpers"], t.InPath := by simp [TT.InPath, tkId]
  obtain ⟨hm, -, hd⟩ := C95_looks (x := "default") hp hh rfl (by simp) levelled_noMethod levelled_source o.expand
    (hk := m.1) ⟨[0, 0], n, o.sub, m, by simp [o.marks], rfl⟩
  obtain ⟨r', evs, g1, rfl, g2⟩ := hd Ex.world (fun _ => none) _ _ rfl rfl (.err ⟨0, (5 : Nat)⟩)
  obtain ⟨ev, rfl⟩ : ∃ ev, evs = [ev] := List.length_eq_one_iff.1 ((g2 _).2 rfl)
  refine ⟨uses, i', s, o.expand, ⟨ev, 0, ?_⟩, o.fits hp rfl hs⟩
  exact o.run (S := Ex.setting) (ev0 := []) rfl (fun _ => rfl) ⟨rfl, rfl, o.closed', o.notOk⟩ hm ((g1 _ _).2 ⟨rfl, rfl⟩)

/-- The hypotheses of `C97_any_flavor` hold for it. -/
example : ∃ uses i' s, hooqImpls env [] levelled = .ok (uses, i') ∧
    (∃ ev, (Ex.one i').Returns () (.res (.err ⟨0, (5 : Nat)⟩)) [ev]) ∧
    ∀ f, FromItem.Observed ⟨env, [], s, levelled, i', uses, presetDocs[0], [],
      { ident := "f", output := result, text := "fn f () -> Result" }, fun _ => "  11> w?\n    |", fun _ => "w?"⟩
      (Ex.one i') f := by
  obtain ⟨uses, i', s, h1, h2, h3⟩ := Ex.one_default
  exact ⟨uses, i', s, h1, h2, fun f => (h3 f).observed (by simp)⟩

/-- Under `anyhow` nothing is reported, and the error gets a text. -/
example : ∃ uses i' s, hooqImpls env [.path (Path.ofIdents ["anyhow"])] levelled = .ok (uses, i') ∧
    (∃ text, (Ex.one i').Returns () (.res (.err ⟨1, (text : String)⟩)) []) ∧
    ∀ f, FromItem.Fits ⟨env, [.path (Path.ofIdents ["anyhow"])], s, levelled, i', uses, presetDocs[9], [],
      { ident := "f", output := result, text := "fn f () -> Result" }, fun _ => "  11> w?\n    |", fun _ => "w?"⟩
      "anyhow" (Ex.one i') f := by
  have hp : Builtin env [.path (Path.ofIdents ["anyhow"])] [tkId "helpers"] presetDocs[9] := by
    refine ⟨by simp [presetDocs], rfl, by simp [NoDollars, TT.NoDollar, tkId], ?_⟩
    have h : Reaches (presetFlavors false [tkId "helpers"] ⟨true, true, true, true⟩) ["anyhow"] _ :=
      (inner_iff (uniq_presets _ _ _) _ _).1 rfl
    exact ⟨_, false, ⟨true, true, true, true⟩, _, rfl, uniq_presets _ _ _, h, h⟩
  have o : ∃ uses i' k n m, Ex.LevelledOut [.path (Path.ofIdents ["anyhow"])] uses i' k n m := by
    refine ⟨_, _, _, _, _, rfl, List.mem_cons_self, rfl, rfl, rfl, rfl, rfl, rfl, ?_, rfl, _, rfl, rfl, rfl, rfl, ?_⟩ <;>
      intro h <;> cases h
  obtain ⟨uses, i', k, n, m, o⟩ := o
  obtain ⟨s, hs⟩ := rootSettings_of_ok o.expand
  have hh : ∀ t ∈ [tkId "helpers"], t.InPath := by simp [TT.InPath, tkId]
  obtain ⟨hm, -, hd⟩ := C95_wraps (x := "anyhow") hp hh rfl (by simp) levelled_noMethod levelled_source o.expand
    (hk := m.1) ⟨[0, 0], n, o.sub, m, by simp [o.marks], rfl⟩
  obtain ⟨r', evs, g1, g2, g3⟩ := hd Ex.world (fun _ => none) _ _ rfl rfl (.err ⟨0, (5 : Nat)⟩)
  obtain ⟨name, text, rfl⟩ := g2 _ rfl
  obtain rfl : evs = [] := List.length_eq_zero_iff.1 ((g3 _).2 rfl)
  refine ⟨uses, i', s, o.expand, ⟨text, 0, ?_⟩, o.fits hp rfl hs⟩
  exact o.run (S := Ex.setting) (ev0 := []) rfl (fun _ => rfl) ⟨rfl, rfl, o.closed', o.notOk⟩ hm ((g1 _ _).2 ⟨rfl, rfl⟩)

end

end Hooq
