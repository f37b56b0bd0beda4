import Verif.Spec.Erase
import Verif.Proof.Local
import Verif.Proof.Position

/-!
# Expansion only adds hooks and takes away inert attributes
-/

set_option linter.unusedSimpArgs false

namespace Hooq

theorem foreign_foreign (a : List Attr) : foreign (foreign a) = foreign a := by
  simp [foreign]

theorem cleanK_foreign (lo : Bool) (attrs : List Attr) (sp : Span) (k : ExprKind) :
    cleanK lo (foreign attrs) sp k = cleanK lo attrs sp k := by
  cases k <;> simp only [cleanK, foreign_foreign]

theorem handled_attrs {env : Env} {attrs : List Attr} {ctx : Ctx} {h : Handled} {c c' : Counter}
    (hw : W.lift (handleAttrs env attrs ctx) c = .ok (h, c')) : h.attrs = foreign attrs ∧ c' = c := by
  obtain ⟨h1, h2⟩ := W.lift_inv hw
  obtain ⟨i, kept, h3, -, h4, -⟩ := handleAttrs_ok h1
  exact ⟨by rw [h4, (extract_spec h3).kept]; rfl, h2⟩

theorem hookExpr_kind {env : Env} {b : Bool} {k : Kind} {sp : Span} {r : Rear} {ctx : Ctx} {c c' : Counter}
    {hk : HookData} (h : hookExpr env b k sp r ctx c = .ok (some hk, c')) : hk.kind = k := by
  simp only [hookExpr] at h
  split at h
  · split at h
    · cases hr : render env { ctx := ctx, kind := k, count := (c.countUp k).get k, span := sp, rear := r } with
      | error e => rw [hr] at h; simp [Except.map] at h
      | ok x =>
        rw [hr] at h
        simp only [Except.map, Except.ok.injEq, Prod.mk.injEq, Option.some.injEq] at h
        rw [← h.1]
        exact (render_kind hr).1
    · simp at h
  · simp at h

theorem cleanE_hooked_other {lo : Bool} {hk : HookData} (h : hk.kind ≠ .question) (arg src : Expr) :
    cleanE lo (mkHooked hk arg src) = cleanE lo arg := by
  simp [mkHooked, cleanE, cleanK, h]

/-- A trailing expression. -/
theorem eraseTail {env : Env} {lo : Bool} {ctx : Ctx} {tk : TailKind} {attrs : List Attr} {sp : Span}
    {k : ExprKind} {walk : Ctx → List Attr → W Expr} {c c' : Counter} {e' : Expr}
    (hp : cleanK lo attrs sp k = cleanK true attrs sp k)
    (ih : ∀ {ctx attrs c c' e'}, cleanK lo attrs sp k = cleanK true attrs sp k →
      walk ctx attrs c = .ok (e', c') → cleanE lo e' = cleanK lo attrs sp k)
    (hw : walkTail env ctx tk attrs sp k walk c = .ok (e', c')) : cleanE lo e' = cleanK lo attrs sp k := by
  simp only [walkTail] at hw
  split at hw
  · obtain ⟨h1, -⟩ := W.lift_inv hw; simp at h1
  · split at hw
    · obtain ⟨rfl, rfl⟩ := W.pure_ok hw
      simp [cleanE]
    · obtain ⟨h, c0, h0, hw⟩ := W.bind_ok hw
      have ha := (handled_attrs h0).1
      obtain ⟨e1, c1, h1, hw⟩ := W.bind_ok hw
      have g1 : cleanE lo e1 = cleanK lo attrs sp k := by
        rw [ih ?_ h1, ha, cleanK_foreign]
        rw [ha, cleanK_foreign, cleanK_foreign, hp]
      split at hw
      · obtain ⟨o, c2, h2, hw⟩ := W.bind_ok hw
        cases o with
        | none => obtain ⟨rfl, rfl⟩ := W.pure_ok hw; exact g1
        | some hk =>
          obtain ⟨rfl, rfl⟩ := W.pure_ok hw
          rw [cleanE_hooked_other (by rw [hookExpr_kind h2]; simp), g1]
      · obtain ⟨rfl, rfl⟩ := W.pure_ok hw; exact g1

/-- Statement of `eraseE`. -/
def PeraseE (env : Env) (lo : Bool) (e : Expr) : Prop :=
  ∀ ⦃ctx : Ctx⦄ ⦃c c' : Counter⦄ ⦃e' : Expr⦄, cleanE lo e = cleanE true e →
    walkExpr env ctx e c = .ok (e', c') → cleanE lo e' = cleanE lo e

/-- Statement of `eraseK`. -/
def PeraseK (env : Env) (lo : Bool) (k : ExprKind) : Prop :=
  ∀ ⦃attrs : List Attr⦄ ⦃sp : Span⦄ ⦃ctx : Ctx⦄ ⦃c c' : Counter⦄ ⦃e' : Expr⦄,
    cleanK lo attrs sp k = cleanK true attrs sp k →
    walkKind env ctx attrs sp k c = .ok (e', c') → cleanE lo e' = cleanK lo attrs sp k

/-- Statement of `eraseCB`. -/
def PeraseCB (env : Env) (lo : Bool) (e : Expr) : Prop :=
  ∀ ⦃ctx : Ctx⦄ ⦃c c' : Counter⦄ ⦃e' : Expr⦄, cleanE lo e = cleanE true e →
    walkClosureBody env ctx e c = .ok (e', c') → cleanE lo e' = cleanE lo e

/-- Statement of `eraseCBlock`. -/
def PeraseCBlock (env : Env) (lo : Bool) (k : ExprKind) : Prop :=
  ∀ ⦃attrs : List Attr⦄ ⦃sp : Span⦄ ⦃ctx : Ctx⦄ ⦃c c' : Counter⦄ ⦃e' : Expr⦄,
    cleanK lo attrs sp k = cleanK true attrs sp k →
    walkClosureBlock env ctx attrs sp k c = .ok (e', c') → cleanE lo e' = cleanK lo attrs sp k

/-- Statement of `eraseArmBody`. -/
def PeraseArmBody (env : Env) (lo : Bool) (e : Expr) : Prop :=
  ∀ ⦃ctx : Ctx⦄ ⦃c c' : Counter⦄ ⦃e' : Expr⦄, cleanE lo e = cleanE true e →
    walkArmBody env ctx e c = .ok (e', c') → cleanE lo e' = cleanE lo e

/-- Statement of `eraseEs`. -/
def PeraseEs (env : Env) (lo : Bool) (es : List Expr) : Prop :=
  ∀ ⦃ctx : Ctx⦄ ⦃c c' : Counter⦄ ⦃es' : List Expr⦄,
    cleanEs lo es = cleanEs true es →
    walkExprs env ctx es c = .ok (es', c') → cleanEs lo es' = cleanEs lo es

/-- Statement of `eraseO`. -/
def PeraseO (env : Env) (lo : Bool) (o : Option Expr) : Prop :=
  ∀ ⦃ctx : Ctx⦄ ⦃c c' : Counter⦄ ⦃o' : Option Expr⦄,
    cleanO lo o = cleanO true o →
    walkOpt env ctx o c = .ok (o', c') → cleanO lo o' = cleanO lo o

/-- Statement of `eraseFields`. -/
def PeraseFields (env : Env) (lo : Bool) (xs : List FieldVal) : Prop :=
  ∀ ⦃ctx : Ctx⦄ ⦃c c' : Counter⦄ ⦃xs' : List FieldVal⦄,
    cleanFields lo xs = cleanFields true xs →
    walkFields env ctx xs c = .ok (xs', c') → cleanFields lo xs' = cleanFields lo xs

/-- Statement of `eraseArms`. -/
def PeraseArms (env : Env) (lo : Bool) (xs : List Arm) : Prop :=
  ∀ ⦃ctx : Ctx⦄ ⦃c c' : Counter⦄ ⦃xs' : List Arm⦄,
    cleanArms lo xs = cleanArms true xs →
    walkArms env ctx xs c = .ok (xs', c') → cleanArms lo xs' = cleanArms lo xs

/-- Statement of `eraseStmts`. -/
def PeraseStmts (env : Env) (lo : Bool) (xs : List Stmt) : Prop :=
  ∀ ⦃ctx : Ctx⦄ ⦃tk : TailKind⦄ ⦃c c' : Counter⦄ ⦃xs' : List Stmt⦄,
    cleanStmts lo xs = cleanStmts true xs →
    walkStmts env ctx tk xs c = .ok (xs', c') → cleanStmts lo xs' = cleanStmts lo xs

/-- Statement of `eraseEvs`. -/
def PeraseEvs (env : Env) (lo : Bool) (xs : List Ev) : Prop :=
  ∀ ⦃ctx : Ctx⦄ ⦃c c' : Counter⦄ ⦃xs' : List Ev⦄,
    cleanEvs lo xs = cleanEvs true xs →
    walkEvs env ctx xs c = .ok (xs', c') → cleanEvs lo xs' = cleanEvs lo xs

/-- Statement of `eraseItems`. -/
def PeraseItems (env : Env) (lo : Bool) (xs : List Item) : Prop :=
  ∀ ⦃ctx : Ctx⦄ ⦃c c' : Counter⦄ ⦃xs' : List Item⦄,
    cleanItems lo xs = cleanItems true xs →
    walkItems env ctx xs c = .ok (xs', c') → cleanItems lo xs' = cleanItems lo xs

/-- Statement of `eraseImplItems`. -/
def PeraseImplItems (env : Env) (lo : Bool) (xs : List ImplItem) : Prop :=
  ∀ ⦃ctx : Ctx⦄ ⦃c c' : Counter⦄ ⦃xs' : List ImplItem⦄,
    cleanImplItems lo xs = cleanImplItems true xs →
    walkImplItems env ctx xs c = .ok (xs', c') → cleanImplItems lo xs' = cleanImplItems lo xs

/-- Statement of `eraseTraitItems`. -/
def PeraseTraitItems (env : Env) (lo : Bool) (xs : List TraitItem) : Prop :=
  ∀ ⦃ctx : Ctx⦄ ⦃c c' : Counter⦄ ⦃xs' : List TraitItem⦄,
    cleanTraitItems lo xs = cleanTraitItems true xs →
    walkTraitItems env ctx xs c = .ok (xs', c') → cleanTraitItems lo xs' = cleanTraitItems lo xs

/-- Statement of `eraseField`. -/
def PeraseField (env : Env) (lo : Bool) (f : FieldVal) : Prop :=
  ∀ ⦃ctx : Ctx⦄ ⦃c c' : Counter⦄ ⦃f' : FieldVal⦄,
    cleanField lo f = cleanField true f →
    walkField env ctx f c = .ok (f', c') → cleanField lo f' = cleanField lo f

/-- Statement of `eraseArm`. -/
def PeraseArm (env : Env) (lo : Bool) (a : Arm) : Prop :=
  ∀ ⦃ctx : Ctx⦄ ⦃c c' : Counter⦄ ⦃a' : Arm⦄,
    cleanArm lo a = cleanArm true a →
    walkArm env ctx a c = .ok (a', c') → cleanArm lo a' = cleanArm lo a

/-- Statement of `eraseStmt`. -/
def PeraseStmt (env : Env) (lo : Bool) (s : Stmt) : Prop :=
  ∀ ⦃ctx : Ctx⦄ ⦃tk : Option TailKind⦄ ⦃c c' : Counter⦄ ⦃s' : Stmt⦄,
    cleanStmt lo s = cleanStmt true s →
    walkStmt env ctx tk s c = .ok (s', c') → cleanStmt lo s' = cleanStmt lo s

/-- Statement of `eraseStmtExpr`. -/
def PeraseStmtExpr (env : Env) (lo : Bool) (e : Expr) : Prop :=
  ∀ ⦃ctx : Ctx⦄ ⦃tk : Option TailKind⦄ ⦃c c' : Counter⦄ ⦃e' : Expr⦄,
    cleanE lo e = cleanE true e →
    walkStmtExpr env ctx tk e c = .ok (e', c') → cleanE lo e' = cleanE lo e

/-- Statement of `eraseMac`. -/
def PeraseMac (env : Env) (lo : Bool) (m : Mac) : Prop :=
  ∀ ⦃ctx : Ctx⦄ ⦃attrs : List Attr⦄ ⦃c c' : Counter⦄ ⦃r : List Attr × Mac⦄,
    cleanMac lo m = cleanMac true m → walkMac env ctx attrs m c = .ok (r, c') →
    r.1 = foreign attrs ∧ cleanMac lo r.2 = cleanMac lo m

/-- Statement of `eraseMacBody`. -/
def PeraseMacBody (env : Env) (lo : Bool) (b : MacBody) : Prop :=
  ∀ ⦃ctx : Ctx⦄ ⦃c c' : Counter⦄ ⦃b' : MacBody⦄,
    cleanMacBody lo b = cleanMacBody true b → walkMacBody env ctx b c = .ok (b', c') →
    cleanMacBody lo b' = cleanMacBody lo b

/-- Statement of `eraseEv`. -/
def PeraseEv (env : Env) (lo : Bool) (v : Ev) : Prop :=
  ∀ ⦃ctx : Ctx⦄ ⦃c c' : Counter⦄ ⦃v' : Ev⦄,
    cleanEv lo v = cleanEv true v → walkEv env ctx v c = .ok (v', c') → cleanEv lo v' = cleanEv lo v

/-- Statement of `eraseItem`. -/
def PeraseItem (env : Env) (lo : Bool) (i : Item) : Prop :=
  ∀ ⦃ctx : Ctx⦄ ⦃c c' : Counter⦄ ⦃i' : Item⦄,
    cleanItem lo i = cleanItem true i → walkItem env ctx i c = .ok (i', c') → cleanItem lo i' = cleanItem lo i

/-- Statement of `eraseImplItem`. -/
def PeraseImplItem (env : Env) (lo : Bool) (i : ImplItem) : Prop :=
  ∀ ⦃ctx : Ctx⦄ ⦃c c' : Counter⦄ ⦃i' : ImplItem⦄,
    cleanImplItem lo i = cleanImplItem true i → walkImplItem env ctx i c = .ok (i', c') →
    cleanImplItem lo i' = cleanImplItem lo i

/-- Statement of `eraseTraitItem`. -/
def PeraseTraitItem (env : Env) (lo : Bool) (i : TraitItem) : Prop :=
  ∀ ⦃ctx : Ctx⦄ ⦃c c' : Counter⦄ ⦃i' : TraitItem⦄,
    cleanTraitItem lo i = cleanTraitItem true i → walkTraitItem env ctx i c = .ok (i', c') →
    cleanTraitItem lo i' = cleanTraitItem lo i

mutual
theorem eraseE (env : Env) (lo : Bool) : ∀ e : Expr, PeraseE env lo e
  | .mk attrs sp k => by
    intro ctx c c' e' hp hw
    simp only [walkExpr] at hw
    simp only [cleanE] at hp ⊢
    exact eraseK env lo k hp hw

theorem eraseK (env : Env) (lo : Bool) : ∀ k : ExprKind, PeraseK env lo k
  | .try_ e q => by
    intro attrs sp ctx c c' e' hp hw
    simp only [walkKind] at hw
    obtain ⟨h, c0, h0, hw⟩ := W.bind_ok hw
    have ha := (handled_attrs h0).1
    simp only [cleanK, Expr.mk.injEq, ExprKind.try_.injEq, true_and, and_true] at hp
    obtain ⟨x1, c1, h1, hw⟩ := W.bind_ok hw
    have g1 := eraseE env lo e hp.2 h1
    obtain ⟨o, c2, h2, hw⟩ := W.bind_ok hw
    cases o with
    | none =>
      obtain ⟨rfl, rfl⟩ := W.pure_ok hw
      simp only [cleanE, cleanK, ha, foreign_foreign, g1]
    | some hk =>
      have hkk := hookExpr_kind h2
      dsimp only at hw
      cases hx : hk.exc with
      | true =>
        rw [hx, if_pos rfl] at hw
        obtain ⟨rfl, rfl⟩ := W.pure_ok hw
        simp only [mkHooked, cleanE, cleanK, hkk, hx, and_self, if_true, g1]
        rw [hp.1]; simp
      | false =>
        rw [hx, if_neg (by simp)] at hw
        obtain ⟨rfl, rfl⟩ := W.pure_ok hw
        simp only [mkHooked, cleanE, cleanK, hx, Bool.false_eq_true, and_false, if_false, ha,
          foreign_foreign, g1]
  | .ret (some e) => by
    intro attrs sp ctx c c' e' hp hw
    simp only [walkKind] at hw
    obtain ⟨h, c0, h0, hw⟩ := W.bind_ok hw
    have ha := (handled_attrs h0).1
    simp only [cleanK, cleanO, Expr.mk.injEq, ExprKind.ret.injEq, true_and, and_true, Option.some.injEq] at hp
    obtain ⟨x1, c1, h1, hw⟩ := W.bind_ok hw
    have g1 := eraseE env lo e hp h1
    split at hw
    · obtain ⟨o, c2, h2, hw⟩ := W.bind_ok hw
      cases o with
      | none =>
        obtain ⟨rfl, rfl⟩ := W.pure_ok hw
        simp only [cleanE, cleanK, cleanO, ha, foreign_foreign, g1]
      | some hk =>
        have hkk := hookExpr_kind h2
        obtain ⟨rfl, rfl⟩ := W.pure_ok hw
        simp only [cleanE, cleanK, cleanO, ha, foreign_foreign,
          cleanE_hooked_other (show hk.kind ≠ .question by rw [hkk]; simp), g1]
    · obtain ⟨rfl, rfl⟩ := W.pure_ok hw
      simp only [cleanE, cleanK, cleanO, ha, foreign_foreign, g1]
  | .ret none => by
    intro attrs sp ctx c c' e' hp hw
    simp only [walkKind] at hw
    obtain ⟨h, c0, h0, hw⟩ := W.bind_ok hw
    have ha := (handled_attrs h0).1
    obtain ⟨rfl, rfl⟩ := W.pure_ok hw
    simp only [cleanE, cleanK, cleanO, ha, foreign_foreign]
  | .array es => by
    intro attrs sp ctx c c' e' hp hw
    simp only [walkKind] at hw
    obtain ⟨h, c0, h0, hw⟩ := W.bind_ok hw
    have ha := (handled_attrs h0).1
    simp only [cleanK, Expr.mk.injEq, ExprKind.array.injEq, true_and, and_true] at hp
    obtain ⟨x1, c1, h1, hw⟩ := W.bind_ok hw
    obtain ⟨rfl, rfl⟩ := W.pure_ok hw
    have g1 := eraseEs env lo es hp h1
    simp only [cleanE, cleanK, ha, foreign_foreign, g1]
  | .assign l r => by
    intro attrs sp ctx c c' e' hp hw
    simp only [walkKind] at hw
    obtain ⟨h, c0, h0, hw⟩ := W.bind_ok hw
    have ha := (handled_attrs h0).1
    simp only [cleanK, Expr.mk.injEq, ExprKind.assign.injEq, true_and, and_true] at hp
    obtain ⟨x1, c1, h1, hw⟩ := W.bind_ok hw
    obtain ⟨rfl, rfl⟩ := W.pure_ok hw
    have g1 := eraseE env lo r hp.2 h1
    simp only [cleanE, cleanK, ha, foreign_foreign, g1]
  | .async b => by
    intro attrs sp ctx c c' e' hp hw
    simp only [walkKind] at hw
    obtain ⟨h, c0, h0, hw⟩ := W.bind_ok hw
    have ha := (handled_attrs h0).1
    simp only [cleanK, Expr.mk.injEq, ExprKind.async.injEq, true_and, and_true] at hp
    obtain ⟨x1, c1, h1, hw⟩ := W.bind_ok hw
    obtain ⟨rfl, rfl⟩ := W.pure_ok hw
    have g1 := eraseStmts env lo b hp h1
    simp only [cleanE, cleanK, ha, foreign_foreign, g1]
  | .await e => by
    intro attrs sp ctx c c' e' hp hw
    simp only [walkKind] at hw
    obtain ⟨h, c0, h0, hw⟩ := W.bind_ok hw
    have ha := (handled_attrs h0).1
    simp only [cleanK, Expr.mk.injEq, ExprKind.await.injEq, true_and, and_true] at hp
    obtain ⟨x1, c1, h1, hw⟩ := W.bind_ok hw
    obtain ⟨rfl, rfl⟩ := W.pure_ok hw
    have g1 := eraseE env lo e hp h1
    simp only [cleanE, cleanK, ha, foreign_foreign, g1]
  | .binary l op r => by
    intro attrs sp ctx c c' e' hp hw
    simp only [walkKind] at hw
    obtain ⟨h, c0, h0, hw⟩ := W.bind_ok hw
    have ha := (handled_attrs h0).1
    simp only [cleanK, Expr.mk.injEq, ExprKind.binary.injEq, true_and, and_true] at hp
    obtain ⟨x1, c1, h1, hw⟩ := W.bind_ok hw
    obtain ⟨x2, c2, h2, hw⟩ := W.bind_ok hw
    obtain ⟨rfl, rfl⟩ := W.pure_ok hw
    have g1 := eraseE env lo l hp.1 h1
    have g2 := eraseE env lo r hp.2 h2
    simp only [cleanE, cleanK, ha, foreign_foreign, g1, g2]
  | .block lb b => by
    intro attrs sp ctx c c' e' hp hw
    simp only [walkKind] at hw
    obtain ⟨h, c0, h0, hw⟩ := W.bind_ok hw
    have ha := (handled_attrs h0).1
    simp only [cleanK, Expr.mk.injEq, ExprKind.block.injEq, true_and, and_true] at hp
    obtain ⟨x1, c1, h1, hw⟩ := W.bind_ok hw
    obtain ⟨rfl, rfl⟩ := W.pure_ok hw
    have g1 := eraseStmts env lo b hp h1
    simp only [cleanE, cleanK, ha, foreign_foreign, g1]
  | .break_ lb v => by
    intro attrs sp ctx c c' e' hp hw
    simp only [walkKind] at hw
    obtain ⟨h, c0, h0, hw⟩ := W.bind_ok hw
    have ha := (handled_attrs h0).1
    simp only [cleanK, Expr.mk.injEq, ExprKind.break_.injEq, true_and, and_true] at hp
    obtain ⟨x1, c1, h1, hw⟩ := W.bind_ok hw
    obtain ⟨rfl, rfl⟩ := W.pure_ok hw
    have g1 := eraseO env lo v hp h1
    simp only [cleanE, cleanK, ha, foreign_foreign, g1]
  | .call f args => by
    intro attrs sp ctx c c' e' hp hw
    simp only [walkKind] at hw
    obtain ⟨h, c0, h0, hw⟩ := W.bind_ok hw
    have ha := (handled_attrs h0).1
    simp only [cleanK, Expr.mk.injEq, ExprKind.call.injEq, true_and, and_true] at hp
    obtain ⟨x1, c1, h1, hw⟩ := W.bind_ok hw
    obtain ⟨x2, c2, h2, hw⟩ := W.bind_ok hw
    obtain ⟨rfl, rfl⟩ := W.pure_ok hw
    have g1 := eraseE env lo f hp.1 h1
    have g2 := eraseEs env lo args hp.2 h2
    simp only [cleanE, cleanK, ha, foreign_foreign, g1, g2]
  | .cast e ty => by
    intro attrs sp ctx c c' e' hp hw
    simp only [walkKind] at hw
    obtain ⟨h, c0, h0, hw⟩ := W.bind_ok hw
    have ha := (handled_attrs h0).1
    simp only [cleanK, Expr.mk.injEq, ExprKind.cast.injEq, true_and, and_true] at hp
    obtain ⟨x1, c1, h1, hw⟩ := W.bind_ok hw
    obtain ⟨rfl, rfl⟩ := W.pure_ok hw
    have g1 := eraseE env lo e hp h1
    simp only [cleanE, cleanK, ha, foreign_foreign, g1]
  | .closure sig body => by
    intro attrs sp ctx c c' e' hp hw
    simp only [walkKind] at hw
    obtain ⟨h, c0, h0, hw⟩ := W.bind_ok hw
    have ha := (handled_attrs h0).1
    simp only [cleanK, Expr.mk.injEq, ExprKind.closure.injEq, true_and, and_true] at hp
    obtain ⟨x1, c1, h1, hw⟩ := W.bind_ok hw
    obtain ⟨rfl, rfl⟩ := W.pure_ok hw
    have g1 := eraseCB env lo body hp h1
    simp only [cleanE, cleanK, ha, foreign_foreign, g1]
  | .const_ b => by
    intro attrs sp ctx c c' e' hp hw
    simp only [walkKind] at hw
    obtain ⟨h, c0, h0, hw⟩ := W.bind_ok hw
    have ha := (handled_attrs h0).1
    simp only [cleanK, Expr.mk.injEq, ExprKind.const_.injEq, true_and, and_true] at hp
    obtain ⟨x1, c1, h1, hw⟩ := W.bind_ok hw
    obtain ⟨rfl, rfl⟩ := W.pure_ok hw
    have g1 := eraseStmts env lo b hp h1
    simp only [cleanE, cleanK, ha, foreign_foreign, g1]
  | .continue_ lb => by
    intro attrs sp ctx c c' e' hp hw
    simp only [walkKind] at hw
    obtain ⟨rfl, rfl⟩ := W.pure_ok hw
    simp only [cleanE]
  | .field e m => by
    intro attrs sp ctx c c' e' hp hw
    simp only [walkKind] at hw
    obtain ⟨h, c0, h0, hw⟩ := W.bind_ok hw
    have ha := (handled_attrs h0).1
    simp only [cleanK, Expr.mk.injEq, ExprKind.field.injEq, true_and, and_true] at hp
    obtain ⟨x1, c1, h1, hw⟩ := W.bind_ok hw
    obtain ⟨rfl, rfl⟩ := W.pure_ok hw
    have g1 := eraseE env lo e hp h1
    simp only [cleanE, cleanK, ha, foreign_foreign, g1]
  | .forLoop hd e b => by
    intro attrs sp ctx c c' e' hp hw
    simp only [walkKind] at hw
    obtain ⟨h, c0, h0, hw⟩ := W.bind_ok hw
    have ha := (handled_attrs h0).1
    simp only [cleanK, Expr.mk.injEq, ExprKind.forLoop.injEq, true_and, and_true] at hp
    obtain ⟨x1, c1, h1, hw⟩ := W.bind_ok hw
    obtain ⟨x2, c2, h2, hw⟩ := W.bind_ok hw
    obtain ⟨rfl, rfl⟩ := W.pure_ok hw
    have g1 := eraseE env lo e hp.1 h1
    have g2 := eraseStmts env lo b hp.2 h2
    simp only [cleanE, cleanK, ha, foreign_foreign, g1, g2]
  | .group e => by
    intro attrs sp ctx c c' e' hp hw
    simp only [walkKind] at hw
    obtain ⟨h, c0, h0, hw⟩ := W.bind_ok hw
    have ha := (handled_attrs h0).1
    simp only [cleanK, Expr.mk.injEq, ExprKind.group.injEq, true_and, and_true] at hp
    obtain ⟨x1, c1, h1, hw⟩ := W.bind_ok hw
    obtain ⟨rfl, rfl⟩ := W.pure_ok hw
    have g1 := eraseE env lo e hp h1
    simp only [cleanE, cleanK, ha, foreign_foreign, g1]
  | .if_ cond thn els => by
    intro attrs sp ctx c c' e' hp hw
    simp only [walkKind] at hw
    obtain ⟨h, c0, h0, hw⟩ := W.bind_ok hw
    have ha := (handled_attrs h0).1
    simp only [cleanK, Expr.mk.injEq, ExprKind.if_.injEq, true_and, and_true] at hp
    obtain ⟨x1, c1, h1, hw⟩ := W.bind_ok hw
    obtain ⟨x2, c2, h2, hw⟩ := W.bind_ok hw
    obtain ⟨x3, c3, h3, hw⟩ := W.bind_ok hw
    obtain ⟨rfl, rfl⟩ := W.pure_ok hw
    have g1 := eraseE env lo cond hp.1 h1
    have g2 := eraseStmts env lo thn hp.2.1 h2
    have g3 := eraseO env lo els hp.2.2 h3
    simp only [cleanE, cleanK, ha, foreign_foreign, g1, g2, g3]
  | .index e i => by
    intro attrs sp ctx c c' e' hp hw
    simp only [walkKind] at hw
    obtain ⟨h, c0, h0, hw⟩ := W.bind_ok hw
    have ha := (handled_attrs h0).1
    simp only [cleanK, Expr.mk.injEq, ExprKind.index.injEq, true_and, and_true] at hp
    obtain ⟨x1, c1, h1, hw⟩ := W.bind_ok hw
    obtain ⟨x2, c2, h2, hw⟩ := W.bind_ok hw
    obtain ⟨rfl, rfl⟩ := W.pure_ok hw
    have g1 := eraseE env lo e hp.1 h1
    have g2 := eraseE env lo i hp.2 h2
    simp only [cleanE, cleanK, ha, foreign_foreign, g1, g2]
  | .infer => by
    intro attrs sp ctx c c' e' hp hw
    simp only [walkKind] at hw
    obtain ⟨rfl, rfl⟩ := W.pure_ok hw
    simp only [cleanE]
  | .let_ p e => by
    intro attrs sp ctx c c' e' hp hw
    simp only [walkKind] at hw
    obtain ⟨h, c0, h0, hw⟩ := W.bind_ok hw
    have ha := (handled_attrs h0).1
    simp only [cleanK, Expr.mk.injEq, ExprKind.let_.injEq, true_and, and_true] at hp
    obtain ⟨x1, c1, h1, hw⟩ := W.bind_ok hw
    obtain ⟨rfl, rfl⟩ := W.pure_ok hw
    have g1 := eraseE env lo e hp h1
    simp only [cleanE, cleanK, ha, foreign_foreign, g1]
  | .lit l => by
    intro attrs sp ctx c c' e' hp hw
    simp only [walkKind] at hw
    obtain ⟨rfl, rfl⟩ := W.pure_ok hw
    simp only [cleanE]
  | .loop lb b => by
    intro attrs sp ctx c c' e' hp hw
    simp only [walkKind] at hw
    obtain ⟨h, c0, h0, hw⟩ := W.bind_ok hw
    have ha := (handled_attrs h0).1
    simp only [cleanK, Expr.mk.injEq, ExprKind.loop.injEq, true_and, and_true] at hp
    obtain ⟨x1, c1, h1, hw⟩ := W.bind_ok hw
    obtain ⟨rfl, rfl⟩ := W.pure_ok hw
    have g1 := eraseStmts env lo b hp h1
    simp only [cleanE, cleanK, ha, foreign_foreign, g1]
  | .mac m => by
    intro attrs sp ctx c c' e' hp hw
    simp only [walkKind] at hw
    obtain ⟨r, c1, h1, hw⟩ := W.bind_ok hw
    obtain ⟨rfl, rfl⟩ := W.pure_ok hw
    simp only [cleanK, Expr.mk.injEq, ExprKind.mac.injEq, true_and] at hp
    have g1 := eraseMac env lo m hp h1
    simp only [cleanE, cleanK, g1.1, g1.2, foreign_foreign]
  | .match_ e arms => by
    intro attrs sp ctx c c' e' hp hw
    simp only [walkKind] at hw
    obtain ⟨h, c0, h0, hw⟩ := W.bind_ok hw
    have ha := (handled_attrs h0).1
    simp only [cleanK, Expr.mk.injEq, ExprKind.match_.injEq, true_and, and_true] at hp
    obtain ⟨x1, c1, h1, hw⟩ := W.bind_ok hw
    obtain ⟨x2, c2, h2, hw⟩ := W.bind_ok hw
    obtain ⟨rfl, rfl⟩ := W.pure_ok hw
    have g1 := eraseE env lo e hp.1 h1
    have g2 := eraseArms env lo arms hp.2 h2
    simp only [cleanE, cleanK, ha, foreign_foreign, g1, g2]
  | .methodCall r n args => by
    intro attrs sp ctx c c' e' hp hw
    simp only [walkKind] at hw
    obtain ⟨h, c0, h0, hw⟩ := W.bind_ok hw
    have ha := (handled_attrs h0).1
    simp only [cleanK, Expr.mk.injEq, ExprKind.methodCall.injEq, true_and, and_true] at hp
    obtain ⟨x1, c1, h1, hw⟩ := W.bind_ok hw
    obtain ⟨x2, c2, h2, hw⟩ := W.bind_ok hw
    obtain ⟨rfl, rfl⟩ := W.pure_ok hw
    have g1 := eraseE env lo r hp.1 h1
    have g2 := eraseEs env lo args hp.2 h2
    simp only [cleanE, cleanK, ha, foreign_foreign, g1, g2]
  | .paren e => by
    intro attrs sp ctx c c' e' hp hw
    simp only [walkKind] at hw
    obtain ⟨h, c0, h0, hw⟩ := W.bind_ok hw
    have ha := (handled_attrs h0).1
    simp only [cleanK, Expr.mk.injEq, ExprKind.paren.injEq, true_and, and_true] at hp
    obtain ⟨x1, c1, h1, hw⟩ := W.bind_ok hw
    obtain ⟨rfl, rfl⟩ := W.pure_ok hw
    have g1 := eraseE env lo e hp h1
    simp only [cleanE, cleanK, ha, foreign_foreign, g1]
  | .path p => by
    intro attrs sp ctx c c' e' hp hw
    simp only [walkKind] at hw
    obtain ⟨rfl, rfl⟩ := W.pure_ok hw
    simp only [cleanE]
  | .range s op t => by
    intro attrs sp ctx c c' e' hp hw
    simp only [walkKind] at hw
    obtain ⟨h, c0, h0, hw⟩ := W.bind_ok hw
    have ha := (handled_attrs h0).1
    simp only [cleanK, Expr.mk.injEq, ExprKind.range.injEq, true_and, and_true] at hp
    obtain ⟨x1, c1, h1, hw⟩ := W.bind_ok hw
    obtain ⟨x2, c2, h2, hw⟩ := W.bind_ok hw
    obtain ⟨rfl, rfl⟩ := W.pure_ok hw
    have g1 := eraseO env lo s hp.1 h1
    have g2 := eraseO env lo t hp.2 h2
    simp only [cleanE, cleanK, ha, foreign_foreign, g1, g2]
  | .rawAddr e => by
    intro attrs sp ctx c c' e' hp hw
    simp only [walkKind] at hw
    obtain ⟨h, c0, h0, hw⟩ := W.bind_ok hw
    have ha := (handled_attrs h0).1
    simp only [cleanK, Expr.mk.injEq, ExprKind.rawAddr.injEq, true_and, and_true] at hp
    obtain ⟨x1, c1, h1, hw⟩ := W.bind_ok hw
    obtain ⟨rfl, rfl⟩ := W.pure_ok hw
    have g1 := eraseE env lo e hp h1
    simp only [cleanE, cleanK, ha, foreign_foreign, g1]
  | .reference e => by
    intro attrs sp ctx c c' e' hp hw
    simp only [walkKind] at hw
    obtain ⟨h, c0, h0, hw⟩ := W.bind_ok hw
    have ha := (handled_attrs h0).1
    simp only [cleanK, Expr.mk.injEq, ExprKind.reference.injEq, true_and, and_true] at hp
    obtain ⟨x1, c1, h1, hw⟩ := W.bind_ok hw
    obtain ⟨rfl, rfl⟩ := W.pure_ok hw
    have g1 := eraseE env lo e hp h1
    simp only [cleanE, cleanK, ha, foreign_foreign, g1]
  | .repeat_ e n => by
    intro attrs sp ctx c c' e' hp hw
    simp only [walkKind] at hw
    obtain ⟨h, c0, h0, hw⟩ := W.bind_ok hw
    have ha := (handled_attrs h0).1
    simp only [cleanK, Expr.mk.injEq, ExprKind.repeat_.injEq, true_and, and_true] at hp
    obtain ⟨x1, c1, h1, hw⟩ := W.bind_ok hw
    obtain ⟨x2, c2, h2, hw⟩ := W.bind_ok hw
    obtain ⟨rfl, rfl⟩ := W.pure_ok hw
    have g1 := eraseE env lo e hp.1 h1
    have g2 := eraseE env lo n hp.2 h2
    simp only [cleanE, cleanK, ha, foreign_foreign, g1, g2]
  | .struct_ hd fs rest => by
    intro attrs sp ctx c c' e' hp hw
    simp only [walkKind] at hw
    obtain ⟨h, c0, h0, hw⟩ := W.bind_ok hw
    have ha := (handled_attrs h0).1
    simp only [cleanK, Expr.mk.injEq, ExprKind.struct_.injEq, true_and, and_true] at hp
    obtain ⟨x1, c1, h1, hw⟩ := W.bind_ok hw
    obtain ⟨x2, c2, h2, hw⟩ := W.bind_ok hw
    obtain ⟨rfl, rfl⟩ := W.pure_ok hw
    have g1 := eraseFields env lo fs hp.1 h1
    have g2 := eraseO env lo rest hp.2 h2
    simp only [cleanE, cleanK, ha, foreign_foreign, g1, g2]
  | .tryBlock b => by
    intro attrs sp ctx c c' e' hp hw
    simp only [walkKind] at hw
    obtain ⟨h, c0, h0, hw⟩ := W.bind_ok hw
    have ha := (handled_attrs h0).1
    simp only [cleanK, Expr.mk.injEq, ExprKind.tryBlock.injEq, true_and, and_true] at hp
    obtain ⟨x1, c1, h1, hw⟩ := W.bind_ok hw
    obtain ⟨rfl, rfl⟩ := W.pure_ok hw
    have g1 := eraseStmts env lo b hp h1
    simp only [cleanE, cleanK, ha, foreign_foreign, g1]
  | .tuple es => by
    intro attrs sp ctx c c' e' hp hw
    simp only [walkKind] at hw
    obtain ⟨h, c0, h0, hw⟩ := W.bind_ok hw
    have ha := (handled_attrs h0).1
    simp only [cleanK, Expr.mk.injEq, ExprKind.tuple.injEq, true_and, and_true] at hp
    obtain ⟨x1, c1, h1, hw⟩ := W.bind_ok hw
    obtain ⟨rfl, rfl⟩ := W.pure_ok hw
    have g1 := eraseEs env lo es hp h1
    simp only [cleanE, cleanK, ha, foreign_foreign, g1]
  | .unary op e => by
    intro attrs sp ctx c c' e' hp hw
    simp only [walkKind] at hw
    obtain ⟨h, c0, h0, hw⟩ := W.bind_ok hw
    have ha := (handled_attrs h0).1
    simp only [cleanK, Expr.mk.injEq, ExprKind.unary.injEq, true_and, and_true] at hp
    obtain ⟨x1, c1, h1, hw⟩ := W.bind_ok hw
    obtain ⟨rfl, rfl⟩ := W.pure_ok hw
    have g1 := eraseE env lo e hp h1
    simp only [cleanE, cleanK, ha, foreign_foreign, g1]
  | .unsafe_ b => by
    intro attrs sp ctx c c' e' hp hw
    simp only [walkKind] at hw
    obtain ⟨h, c0, h0, hw⟩ := W.bind_ok hw
    have ha := (handled_attrs h0).1
    simp only [cleanK, Expr.mk.injEq, ExprKind.unsafe_.injEq, true_and, and_true] at hp
    obtain ⟨x1, c1, h1, hw⟩ := W.bind_ok hw
    obtain ⟨rfl, rfl⟩ := W.pure_ok hw
    have g1 := eraseStmts env lo b hp h1
    simp only [cleanE, cleanK, ha, foreign_foreign, g1]
  | .verbatim ts => by
    intro attrs sp ctx c c' e' hp hw
    simp only [walkKind] at hw
    obtain ⟨rfl, rfl⟩ := W.pure_ok hw
    simp only [cleanE]
  | .while_ lb cond b => by
    intro attrs sp ctx c c' e' hp hw
    simp only [walkKind] at hw
    obtain ⟨h, c0, h0, hw⟩ := W.bind_ok hw
    have ha := (handled_attrs h0).1
    simp only [cleanK, Expr.mk.injEq, ExprKind.while_.injEq, true_and, and_true] at hp
    obtain ⟨x1, c1, h1, hw⟩ := W.bind_ok hw
    obtain ⟨x2, c2, h2, hw⟩ := W.bind_ok hw
    obtain ⟨rfl, rfl⟩ := W.pure_ok hw
    have g1 := eraseE env lo cond hp.1 h1
    have g2 := eraseStmts env lo b hp.2 h2
    simp only [cleanE, cleanK, ha, foreign_foreign, g1, g2]
  | .yield_ v => by
    intro attrs sp ctx c c' e' hp hw
    simp only [walkKind] at hw
    obtain ⟨h, c0, h0, hw⟩ := W.bind_ok hw
    have ha := (handled_attrs h0).1
    simp only [cleanK, Expr.mk.injEq, ExprKind.yield_.injEq, true_and, and_true] at hp
    obtain ⟨x1, c1, h1, hw⟩ := W.bind_ok hw
    obtain ⟨rfl, rfl⟩ := W.pure_ok hw
    have g1 := eraseO env lo v hp h1
    simp only [cleanE, cleanK, ha, foreign_foreign, g1]
  | .hooked hk arg src => by
    intro attrs sp ctx c c' e' hp hw
    simp only [walkKind] at hw
    obtain ⟨h1, -⟩ := W.lift_inv hw
    simp at h1

theorem eraseCB (env : Env) (lo : Bool) : ∀ e : Expr, PeraseCB env lo e
  | .mk attrs sp k => by
    intro ctx c c' e' hp hw
    have ihK := fun {attrs ctx c c' e'} => eraseK env lo k (attrs := attrs) (sp := sp) (ctx := ctx) (c := c) (c' := c') (e' := e')
    have ihB := fun {ctx c c' e'} => eraseCBlock env lo k (attrs := attrs) (sp := sp) (ctx := ctx) (c := c) (c' := c') (e' := e')
    simp only [walkClosureBody] at hw
    simp only [cleanE] at hp ⊢
    split at hw
    · exact ihB hp hw
    · exact eraseTail hp (fun hp hw => ihK hp hw) hw

theorem eraseCBlock (env : Env) (lo : Bool) : ∀ k : ExprKind, PeraseCBlock env lo k := by
  intro k
  intro attrs sp ctx c c' e' hp hw
  cases k with
  | block lb b =>
    simp only [walkClosureBlock] at hw
    obtain ⟨h, c0, h0, hw⟩ := W.bind_ok hw
    have ha := (handled_attrs h0).1
    simp only [cleanK, Expr.mk.injEq, ExprKind.block.injEq, true_and, and_true] at hp
    obtain ⟨x1, c1, h1, hw⟩ := W.bind_ok hw
    obtain ⟨rfl, rfl⟩ := W.pure_ok hw
    have g1 := eraseStmts env lo b hp h1
    simp only [cleanE, cleanK, ha, foreign_foreign, g1]
  | _ =>
    simp only [walkClosureBlock] at hw
    obtain ⟨rfl, rfl⟩ := W.pure_ok hw
    simp only [cleanE]

theorem eraseArmBody (env : Env) (lo : Bool) : ∀ e : Expr, PeraseArmBody env lo e
  | .mk attrs sp k => by
    intro ctx c c' e' hp hw
    have ihK := fun {attrs ctx c c' e'} => eraseK env lo k (attrs := attrs) (sp := sp) (ctx := ctx) (c := c) (c' := c') (e' := e')
    simp only [walkArmBody] at hw
    simp only [cleanE] at hp ⊢
    split at hw
    · exact ihK hp hw
    · exact eraseTail hp (fun hp hw => ihK hp hw) hw

theorem eraseEs (env : Env) (lo : Bool) : ∀ es : List Expr, PeraseEs env lo es
  | [] => by
    intro ctx c c' es' hp hw
    simp only [walkExprs] at hw
    obtain ⟨rfl, rfl⟩ := W.pure_ok hw
    rfl
  | e :: es => by
    intro ctx c c' es' hp hw
    simp only [walkExprs] at hw
    simp only [cleanEs, List.cons.injEq] at hp
    obtain ⟨x1, c1, h1, hw⟩ := W.bind_ok hw
    obtain ⟨x2, c2, h2, hw⟩ := W.bind_ok hw
    obtain ⟨rfl, rfl⟩ := W.pure_ok hw
    simp only [cleanEs, eraseE env lo e hp.1 h1, eraseEs env lo es hp.2 h2]

theorem eraseO (env : Env) (lo : Bool) : ∀ o : Option Expr, PeraseO env lo o
  | none => by
    intro ctx c c' o' hp hw
    simp only [walkOpt] at hw
    obtain ⟨rfl, rfl⟩ := W.pure_ok hw
    rfl
  | some e => by
    intro ctx c c' o' hp hw
    simp only [walkOpt] at hw
    simp only [cleanO, Option.some.injEq] at hp
    obtain ⟨x1, c1, h1, hw⟩ := W.bind_ok hw
    obtain ⟨rfl, rfl⟩ := W.pure_ok hw
    simp only [cleanO, eraseE env lo e hp h1]

theorem eraseFields (env : Env) (lo : Bool) : ∀ xs : List FieldVal, PeraseFields env lo xs
  | [] => by
    intro ctx c c' xs' hp hw
    simp only [walkFields] at hw
    obtain ⟨rfl, rfl⟩ := W.pure_ok hw
    rfl
  | x :: xs => by
    intro ctx c c' xs' hp hw
    simp only [walkFields] at hw
    simp only [cleanFields, List.cons.injEq] at hp
    obtain ⟨x1, c1, h1, hw⟩ := W.bind_ok hw
    obtain ⟨x2, c2, h2, hw⟩ := W.bind_ok hw
    obtain ⟨rfl, rfl⟩ := W.pure_ok hw
    simp only [cleanFields, eraseField env lo x hp.1 h1, eraseFields env lo xs hp.2 h2]

theorem eraseArms (env : Env) (lo : Bool) : ∀ xs : List Arm, PeraseArms env lo xs
  | [] => by
    intro ctx c c' xs' hp hw
    simp only [walkArms] at hw
    obtain ⟨rfl, rfl⟩ := W.pure_ok hw
    rfl
  | x :: xs => by
    intro ctx c c' xs' hp hw
    simp only [walkArms] at hw
    simp only [cleanArms, List.cons.injEq] at hp
    obtain ⟨x1, c1, h1, hw⟩ := W.bind_ok hw
    obtain ⟨x2, c2, h2, hw⟩ := W.bind_ok hw
    obtain ⟨rfl, rfl⟩ := W.pure_ok hw
    simp only [cleanArms, eraseArm env lo x hp.1 h1, eraseArms env lo xs hp.2 h2]

theorem eraseStmts (env : Env) (lo : Bool) : ∀ xs : List Stmt, PeraseStmts env lo xs
  | [] => by
    intro ctx tk c c' xs' hp hw
    simp only [walkStmts] at hw
    obtain ⟨rfl, rfl⟩ := W.pure_ok hw
    rfl
  | x :: xs => by
    intro ctx tk c c' xs' hp hw
    simp only [walkStmts] at hw
    simp only [cleanStmts, List.cons.injEq] at hp
    obtain ⟨x1, c1, h1, hw⟩ := W.bind_ok hw
    obtain ⟨x2, c2, h2, hw⟩ := W.bind_ok hw
    obtain ⟨rfl, rfl⟩ := W.pure_ok hw
    simp only [cleanStmts, eraseStmt env lo x hp.1 h1, eraseStmts env lo xs hp.2 h2]

theorem eraseEvs (env : Env) (lo : Bool) : ∀ xs : List Ev, PeraseEvs env lo xs
  | [] => by
    intro ctx c c' xs' hp hw
    simp only [walkEvs] at hw
    obtain ⟨rfl, rfl⟩ := W.pure_ok hw
    rfl
  | x :: xs => by
    intro ctx c c' xs' hp hw
    simp only [walkEvs] at hw
    simp only [cleanEvs, List.cons.injEq] at hp
    obtain ⟨x1, c1, h1, hw⟩ := W.bind_ok hw
    obtain ⟨x2, c2, h2, hw⟩ := W.bind_ok hw
    obtain ⟨rfl, rfl⟩ := W.pure_ok hw
    simp only [cleanEvs, eraseEv env lo x hp.1 h1, eraseEvs env lo xs hp.2 h2]

theorem eraseItems (env : Env) (lo : Bool) : ∀ xs : List Item, PeraseItems env lo xs
  | [] => by
    intro ctx c c' xs' hp hw
    simp only [walkItems] at hw
    obtain ⟨rfl, rfl⟩ := W.pure_ok hw
    rfl
  | x :: xs => by
    intro ctx c c' xs' hp hw
    simp only [walkItems] at hw
    simp only [cleanItems, List.cons.injEq] at hp
    obtain ⟨x1, c1, h1, hw⟩ := W.bind_ok hw
    obtain ⟨x2, c2, h2, hw⟩ := W.bind_ok hw
    obtain ⟨rfl, rfl⟩ := W.pure_ok hw
    simp only [cleanItems, eraseItem env lo x hp.1 h1, eraseItems env lo xs hp.2 h2]

theorem eraseImplItems (env : Env) (lo : Bool) : ∀ xs : List ImplItem, PeraseImplItems env lo xs
  | [] => by
    intro ctx c c' xs' hp hw
    simp only [walkImplItems] at hw
    obtain ⟨rfl, rfl⟩ := W.pure_ok hw
    rfl
  | x :: xs => by
    intro ctx c c' xs' hp hw
    simp only [walkImplItems] at hw
    simp only [cleanImplItems, List.cons.injEq] at hp
    obtain ⟨x1, c1, h1, hw⟩ := W.bind_ok hw
    obtain ⟨x2, c2, h2, hw⟩ := W.bind_ok hw
    obtain ⟨rfl, rfl⟩ := W.pure_ok hw
    simp only [cleanImplItems, eraseImplItem env lo x hp.1 h1, eraseImplItems env lo xs hp.2 h2]

theorem eraseTraitItems (env : Env) (lo : Bool) : ∀ xs : List TraitItem, PeraseTraitItems env lo xs
  | [] => by
    intro ctx c c' xs' hp hw
    simp only [walkTraitItems] at hw
    obtain ⟨rfl, rfl⟩ := W.pure_ok hw
    rfl
  | x :: xs => by
    intro ctx c c' xs' hp hw
    simp only [walkTraitItems] at hw
    simp only [cleanTraitItems, List.cons.injEq] at hp
    obtain ⟨x1, c1, h1, hw⟩ := W.bind_ok hw
    obtain ⟨x2, c2, h2, hw⟩ := W.bind_ok hw
    obtain ⟨rfl, rfl⟩ := W.pure_ok hw
    simp only [cleanTraitItems, eraseTraitItem env lo x hp.1 h1, eraseTraitItems env lo xs hp.2 h2]

theorem eraseField (env : Env) (lo : Bool) : ∀ f : FieldVal, PeraseField env lo f
  | .mk attrs m e => by
    intro ctx c c' i' hp hw
    simp only [walkField] at hw
    simp only [cleanField, FieldVal.mk.injEq, true_and, and_true] at hp
    obtain ⟨h, c0, h0, hw⟩ := W.bind_ok hw
    have ha := (handled_attrs h0).1
    obtain ⟨x1, c1, h1, hw⟩ := W.bind_ok hw
    obtain ⟨rfl, rfl⟩ := W.pure_ok hw
    simp only [cleanField, ha, foreign_foreign, eraseE env lo e hp h1]

theorem eraseArm (env : Env) (lo : Bool) : ∀ a : Arm, PeraseArm env lo a
  | .mk attrs pat guard body => by
    intro ctx c c' a' hp hw
    simp only [walkArm] at hw
    simp only [cleanArm, Arm.mk.injEq, true_and] at hp
    obtain ⟨x1, c1, h1, hw⟩ := W.bind_ok hw
    obtain ⟨x2, c2, h2, hw⟩ := W.bind_ok hw
    obtain ⟨rfl, rfl⟩ := W.pure_ok hw
    simp only [cleanArm, eraseO env lo guard hp.1 h1, eraseArmBody env lo body hp.2 h2]

theorem eraseStmt (env : Env) (lo : Bool) : ∀ s : Stmt, PeraseStmt env lo s
  | .localInit attrs pat e dv => by
    intro ctx tk c c' i' hp hw
    simp only [walkStmt] at hw
    simp only [cleanStmt, Stmt.localInit.injEq, true_and, and_true] at hp
    obtain ⟨h, c0, h0, hw⟩ := W.bind_ok hw
    have ha := (handled_attrs h0).1
    obtain ⟨x1, c1, h1, hw⟩ := W.bind_ok hw
    obtain ⟨x2, c2, h2, hw⟩ := W.bind_ok hw
    obtain ⟨rfl, rfl⟩ := W.pure_ok hw
    simp only [cleanStmt, ha, foreign_foreign, eraseE env lo e hp.1 h1, eraseO env lo dv hp.2 h2]
  | .localDecl attrs pat => by
    intro ctx tk c c' i' hp hw
    simp only [walkStmt] at hw
    obtain ⟨rfl, rfl⟩ := W.pure_ok hw
    rfl
  | .item i => by
    intro ctx tk c c' s' hp hw
    simp only [walkStmt] at hw
    simp only [cleanStmt, Stmt.item.injEq] at hp
    obtain ⟨x1, c1, h1, hw⟩ := W.bind_ok hw
    obtain ⟨rfl, rfl⟩ := W.pure_ok hw
    simp only [cleanStmt, eraseItem env lo i hp h1]
  | .expr e semi => by
    intro ctx tk c c' s' hp hw
    simp only [walkStmt] at hw
    simp only [cleanStmt, Stmt.expr.injEq, and_true] at hp
    obtain ⟨x1, c1, h1, hw⟩ := W.bind_ok hw
    obtain ⟨rfl, rfl⟩ := W.pure_ok hw
    simp only [cleanStmt, eraseStmtExpr env lo e hp h1]
  | .mac attrs m semi => by
    intro ctx tk c c' i' hp hw
    simp only [walkStmt] at hw
    simp only [cleanStmt, Stmt.mac.injEq, true_and, and_true] at hp
    obtain ⟨r, c1, h1, hw⟩ := W.bind_ok hw
    obtain ⟨rfl, rfl⟩ := W.pure_ok hw
    have g1 := eraseMac env lo m hp h1
    simp only [cleanStmt, g1.1, g1.2, foreign_foreign]

theorem eraseStmtExpr (env : Env) (lo : Bool) : ∀ e : Expr, PeraseStmtExpr env lo e
  | .mk attrs sp k => by
    intro ctx tk c c' e' hp hw
    have ihK := fun {attrs ctx c c' e'} => eraseK env lo k (attrs := attrs) (sp := sp) (ctx := ctx) (c := c) (c' := c') (e' := e')
    simp only [cleanE] at hp ⊢
    cases tk with
    | none =>
      simp only [walkStmtExpr] at hw
      exact ihK hp hw
    | some tk =>
      simp only [walkStmtExpr] at hw
      exact eraseTail hp (fun hp hw => ihK hp hw) hw

theorem eraseMac (env : Env) (lo : Bool) : ∀ m : Mac, PeraseMac env lo m
  | .mk p d body => by
    intro ctx attrs c c' r hp hw
    simp only [walkMac] at hw
    obtain ⟨h, c0, h0, hw⟩ := W.bind_ok hw
    have ha := (handled_attrs h0).1
    simp only [cleanMac, Mac.mk.injEq, true_and] at hp
    split at hw
    · obtain ⟨x1, c1, h1, hw⟩ := W.bind_ok hw
      obtain ⟨rfl, rfl⟩ := W.pure_ok hw
      simp only [cleanMac, ha, eraseMacBody env lo body hp h1, and_self]
    · obtain ⟨rfl, rfl⟩ := W.pure_ok hw
      exact ⟨ha, rfl⟩

theorem eraseMacBody (env : Env) (lo : Bool) : ∀ b : MacBody, PeraseMacBody env lo b
  | .raw ts => by
    intro ctx c c' b' hp hw
    simp only [walkMacBody] at hw
    obtain ⟨rfl, rfl⟩ := W.pure_ok hw
    rfl
  | .parsed evs => by
    intro ctx c c' b' hp hw
    simp only [walkMacBody] at hw
    simp only [cleanMacBody, MacBody.parsed.injEq] at hp
    obtain ⟨x1, c1, h1, hw⟩ := W.bind_ok hw
    obtain ⟨rfl, rfl⟩ := W.pure_ok hw
    simp only [cleanMacBody, eraseEvs env lo evs hp h1]

theorem eraseEv (env : Env) (lo : Bool) : ∀ v : Ev, PeraseEv env lo v
  | .file attrs items sep => by
    intro ctx c c' v' hp hw
    simp only [walkEv] at hw
    simp only [cleanEv, Ev.file.injEq, and_true, if_true] at hp
    obtain ⟨x1, c1, h1, hw⟩ := W.bind_ok hw
    obtain ⟨rfl, rfl⟩ := W.pure_ok hw
    simp only [cleanEv, eraseItems env lo items hp.2 h1, hp.1, ite_self]
  | .item i sep => by
    intro ctx c c' v' hp hw
    simp only [walkEv] at hw
    simp only [cleanEv, Ev.item.injEq, and_true] at hp
    obtain ⟨x1, c1, h1, hw⟩ := W.bind_ok hw
    obtain ⟨rfl, rfl⟩ := W.pure_ok hw
    simp only [cleanEv, eraseItem env lo i hp h1]
  | .expr e sep => by
    intro ctx c c' v' hp hw
    simp only [walkEv] at hw
    simp only [cleanEv, Ev.expr.injEq, and_true] at hp
    obtain ⟨x1, c1, h1, hw⟩ := W.bind_ok hw
    obtain ⟨rfl, rfl⟩ := W.pure_ok hw
    simp only [cleanEv, eraseE env lo e hp h1]
  | .stmt s sep => by
    intro ctx c c' v' hp hw
    simp only [walkEv] at hw
    simp only [cleanEv, Ev.stmt.injEq, and_true] at hp
    obtain ⟨x1, c1, h1, hw⟩ := W.bind_ok hw
    obtain ⟨rfl, rfl⟩ := W.pure_ok hw
    simp only [cleanEv, eraseStmt env lo s hp h1]

theorem eraseItem (env : Env) (lo : Bool) : ∀ i : Item, PeraseItem env lo i
  | .fn attrs sig body => by
    intro ctx c c' i' hp hw
    simp only [walkItem] at hw
    simp only [cleanItem, Item.fn.injEq, true_and, and_true] at hp
    obtain ⟨h, c0, h0, hw⟩ := W.bind_ok hw
    have ha := (handled_attrs h0).1
    obtain ⟨x1, c1, h1, hw⟩ := W.bind_ok hw
    obtain ⟨rfl, rfl⟩ := W.pure_ok hw
    simp only [cleanItem, ha, foreign_foreign, eraseStmts env lo body hp h1]
  | .impl_ attrs hd items => by
    intro ctx c c' i' hp hw
    simp only [walkItem] at hw
    simp only [cleanItem, Item.impl_.injEq, true_and, and_true] at hp
    obtain ⟨h, c0, h0, hw⟩ := W.bind_ok hw
    have ha := (handled_attrs h0).1
    obtain ⟨x1, c1, h1, hw⟩ := W.bind_ok hw
    obtain ⟨rfl, rfl⟩ := W.pure_ok hw
    simp only [cleanItem, ha, foreign_foreign, eraseImplItems env lo items hp h1]
  | .mod_ attrs name items => by
    intro ctx c c' i' hp hw
    simp only [walkItem] at hw
    simp only [cleanItem, Item.mod_.injEq, true_and, and_true] at hp
    obtain ⟨h, c0, h0, hw⟩ := W.bind_ok hw
    have ha := (handled_attrs h0).1
    obtain ⟨x1, c1, h1, hw⟩ := W.bind_ok hw
    obtain ⟨rfl, rfl⟩ := W.pure_ok hw
    simp only [cleanItem, ha, foreign_foreign, eraseItems env lo items hp h1]
  | .const_ attrs hd e => by
    intro ctx c c' i' hp hw
    simp only [walkItem] at hw
    simp only [cleanItem, Item.const_.injEq, true_and, and_true] at hp
    obtain ⟨h, c0, h0, hw⟩ := W.bind_ok hw
    have ha := (handled_attrs h0).1
    obtain ⟨x1, c1, h1, hw⟩ := W.bind_ok hw
    obtain ⟨rfl, rfl⟩ := W.pure_ok hw
    simp only [cleanItem, ha, foreign_foreign, eraseE env lo e hp h1]
  | .static_ attrs hd e => by
    intro ctx c c' i' hp hw
    simp only [walkItem] at hw
    simp only [cleanItem, Item.static_.injEq, true_and, and_true] at hp
    obtain ⟨h, c0, h0, hw⟩ := W.bind_ok hw
    have ha := (handled_attrs h0).1
    obtain ⟨x1, c1, h1, hw⟩ := W.bind_ok hw
    obtain ⟨rfl, rfl⟩ := W.pure_ok hw
    simp only [cleanItem, ha, foreign_foreign, eraseE env lo e hp h1]
  | .trait_ attrs hd items => by
    intro ctx c c' i' hp hw
    simp only [walkItem] at hw
    simp only [cleanItem, Item.trait_.injEq, true_and, and_true] at hp
    obtain ⟨h, c0, h0, hw⟩ := W.bind_ok hw
    have ha := (handled_attrs h0).1
    obtain ⟨x1, c1, h1, hw⟩ := W.bind_ok hw
    obtain ⟨rfl, rfl⟩ := W.pure_ok hw
    simp only [cleanItem, ha, foreign_foreign, eraseTraitItems env lo items hp h1]
  | .mac attrs m => by
    intro ctx c c' i' hp hw
    simp only [walkItem] at hw
    simp only [cleanItem, Item.mac.injEq, true_and, and_true] at hp
    obtain ⟨r, c1, h1, hw⟩ := W.bind_ok hw
    obtain ⟨rfl, rfl⟩ := W.pure_ok hw
    have g1 := eraseMac env lo m hp h1
    simp only [cleanItem, g1.1, g1.2, foreign_foreign]
  | .macroRules attrs name m => by
    intro ctx c c' i' hp hw
    simp only [walkItem] at hw
    obtain ⟨rfl, rfl⟩ := W.pure_ok hw
    rfl
  | .other attrs text => by
    intro ctx c c' i' hp hw
    simp only [walkItem] at hw
    obtain ⟨rfl, rfl⟩ := W.pure_ok hw
    rfl

theorem eraseImplItem (env : Env) (lo : Bool) : ∀ i : ImplItem, PeraseImplItem env lo i
  | .fn attrs sig body => by
    intro ctx c c' i' hp hw
    simp only [walkImplItem] at hw
    simp only [cleanImplItem, ImplItem.fn.injEq, true_and, and_true] at hp
    obtain ⟨h, c0, h0, hw⟩ := W.bind_ok hw
    have ha := (handled_attrs h0).1
    obtain ⟨x1, c1, h1, hw⟩ := W.bind_ok hw
    obtain ⟨rfl, rfl⟩ := W.pure_ok hw
    simp only [cleanImplItem, ha, foreign_foreign, eraseStmts env lo body hp h1]
  | .const_ attrs hd e => by
    intro ctx c c' i' hp hw
    simp only [walkImplItem] at hw
    simp only [cleanImplItem, ImplItem.const_.injEq, true_and, and_true] at hp
    obtain ⟨h, c0, h0, hw⟩ := W.bind_ok hw
    have ha := (handled_attrs h0).1
    obtain ⟨x1, c1, h1, hw⟩ := W.bind_ok hw
    obtain ⟨rfl, rfl⟩ := W.pure_ok hw
    simp only [cleanImplItem, ha, foreign_foreign, eraseE env lo e hp h1]
  | .mac attrs m => by
    intro ctx c c' i' hp hw
    simp only [walkImplItem] at hw
    simp only [cleanImplItem, ImplItem.mac.injEq, true_and, and_true] at hp
    obtain ⟨r, c1, h1, hw⟩ := W.bind_ok hw
    obtain ⟨rfl, rfl⟩ := W.pure_ok hw
    have g1 := eraseMac env lo m hp h1
    simp only [cleanImplItem, g1.1, g1.2, foreign_foreign]
  | .other attrs text => by
    intro ctx c c' i' hp hw
    simp only [walkImplItem] at hw
    obtain ⟨rfl, rfl⟩ := W.pure_ok hw
    rfl

theorem eraseTraitItem (env : Env) (lo : Bool) : ∀ i : TraitItem, PeraseTraitItem env lo i
  | .fn attrs sig body => by
    intro ctx c c' i' hp hw
    simp only [walkTraitItem] at hw
    simp only [cleanTraitItem, TraitItem.fn.injEq, true_and, and_true] at hp
    obtain ⟨h, c0, h0, hw⟩ := W.bind_ok hw
    have ha := (handled_attrs h0).1
    obtain ⟨x1, c1, h1, hw⟩ := W.bind_ok hw
    obtain ⟨rfl, rfl⟩ := W.pure_ok hw
    simp only [cleanTraitItem, ha, foreign_foreign, eraseStmts env lo body hp h1]
  | .const_ attrs hd e => by
    intro ctx c c' i' hp hw
    simp only [walkTraitItem] at hw
    simp only [cleanTraitItem, TraitItem.const_.injEq, true_and, and_true] at hp
    obtain ⟨h, c0, h0, hw⟩ := W.bind_ok hw
    have ha := (handled_attrs h0).1
    obtain ⟨x1, c1, h1, hw⟩ := W.bind_ok hw
    obtain ⟨rfl, rfl⟩ := W.pure_ok hw
    simp only [cleanTraitItem, ha, foreign_foreign, eraseE env lo e hp h1]
  | .mac attrs m => by
    intro ctx c c' i' hp hw
    simp only [walkTraitItem] at hw
    simp only [cleanTraitItem, TraitItem.mac.injEq, true_and, and_true] at hp
    obtain ⟨r, c1, h1, hw⟩ := W.bind_ok hw
    obtain ⟨rfl, rfl⟩ := W.pure_ok hw
    have g1 := eraseMac env lo m hp h1
    simp only [cleanTraitItem, g1.1, g1.2, foreign_foreign]
  | .other attrs text => by
    intro ctx c c' i' hp hw
    simp only [walkTraitItem] at hw
    obtain ⟨rfl, rfl⟩ := W.pure_ok hw
    rfl

end

end Hooq
