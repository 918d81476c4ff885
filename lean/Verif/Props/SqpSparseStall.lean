import Verif.Props.SqpSparse
import Verif.Props.MpcWarm
import Verif.Lemmas.SqpLocal

/-!
# Starting the sparse SQP solver at the solution (C180)

At a feasible point where the gradient of the cost is zero, with multipliers that are not zero, the dense solver needs two iterations to report success; the sparse one divides by zero
in the second.
-/

set_option linter.unusedSectionVars false

namespace PolyMPC.BoxAdmm
open Matrix PolyMPC.Spec PolyMPC.QPBase

variable {K : Type*} [Field K] [LinearOrder K] [IsStrictOrderedRing K] {N M : ℕ} {both : Bool}
  {lin : KktMat K N M → (KktIdx N M → K) → (KktIdx N M → K)} {sq : K → K} {cfg : Settings K} {qp : QP K N M}

/-- All iterates are zero. -/
structure AtZero (st : State K N M) : Prop where
  x : st.x = 0
  y : st.y = 0
  z : st.z = 0
  q : st.q = 0

/-- Zero is an unconstrained minimiser and satisfies the constraints of the QP. -/
structure ZeroOpt (qp : QP K N M) : Prop where
  h : qp.h = 0
  A : ∀ i, qp.Alb i ≤ 0 ∧ 0 ≤ qp.Aub i
  x : ∀ i, qp.xlb i ≤ 0 ∧ 0 ≤ qp.xub i

theorem clip_zero {lo up : K} (h : lo ≤ 0 ∧ 0 ≤ up) : min (max 0 lo) up = 0 := by
  rw [max_eq_left h.1, min_eq_left h.2]

theorem admmUpdate_zero (hl : ∀ A, lin A 0 = 0) (hq : ZeroOpt qp) {st : State K N M} (h : AtZero st) : AtZero (admmUpdate lin cfg qp st) := by
  obtain ⟨h1, h2, h3, h4⟩ := h
  have hy : headM st.y = 0 := by rw [h2]; rfl
  have hy' : tailN st.y = 0 := by rw [h2]; rfl
  have hr : kktRhs cfg.sigma qp.h st = 0 := by
    funext i
    rcases i with i | i
    · show cfg.sigma * st.x i - qp.h i + st.rhoVecBox i * st.q i - tailN st.y i = 0
      rw [h1, hq.h, h4, hy']
      simp
    · show st.z i - st.rhoInvVec i * headM st.y i = 0
      rw [h3, hy]
      simp
  have hx : (admmUpdate lin cfg qp st).x = 0 := by
    unfold admmUpdate xUpdate
    dsimp only
    rw [hr, hl]
    funext i
    simp
  have hz : (admmUpdate lin cfg qp st).z = 0 := by
    unfold admmUpdate
    dsimp only
    rw [hr, hl, hy, h3]
    funext i
    simpa using clip_zero (hq.A i)
  have hqq : (admmUpdate lin cfg qp st).q = 0 := by
    unfold admmUpdate xUpdate
    dsimp only
    rw [hr, hl, hy']
    funext i
    simpa using clip_zero (hq.x i)
  refine ⟨hx, ?_, hz, hqq⟩
  have e : (admmUpdate lin cfg qp st).y = Sum.elim
      (fun i => headM st.y i + st.rhoVec i * (cfg.alpha * (st.z i + st.rhoInvVec i * (lin st.fact (kktRhs cfg.sigma qp.h st) (Sum.inr i) - headM st.y i)) + (1 - cfg.alpha) * st.z i
        - (admmUpdate lin cfg qp st).z i))
      (fun i => tailN st.y i + st.rhoVecBox i * ((admmUpdate lin cfg qp st).x i - (admmUpdate lin cfg qp st).q i)) := rfl
  rw [e, hx, hz, hqq, hr, hl, hy, hy', h3]
  funext i
  rcases i with i | i <;> simp

theorem body_zero (hl : ∀ A, lin A 0 = 0) (hq : ZeroOpt qp) (iter : ℤ) {st : State K N M} (h : AtZero st) :
    (∀ s, body lin sq cfg qp iter st = .brk s → AtZero s) ∧ ∀ s, body lin sq cfg qp iter st = .cont s → AtZero s := by
  have h1 := admmUpdate_zero (cfg := cfg) hl hq h
  have hr : ∀ s : State K N M, AtZero s → AtZero (residualsUpdate qp s) := fun s h => ⟨h.x, h.y, h.z, h.q⟩
  have ha : ∀ s : State K N M, AtZero s → AtZero (adaptRho sq cfg s) := by
    intro s h
    unfold adaptRho
    dsimp only
    split_ifs
    · exact ⟨h.x, h.y, h.z, h.q⟩
    · exact ⟨h.x, h.y, h.z, h.q⟩
  have h2 : AtZero (if checkNow cfg iter = true then residualsUpdate qp (admmUpdate lin cfg qp st) else admmUpdate lin cfg qp st) := by
    split_ifs
    · exact hr _ h1
    · exact h1
  unfold body
  dsimp only
  generalize (if checkNow cfg iter = true then residualsUpdate qp (admmUpdate lin cfg qp st) else admmUpdate lin cfg qp st) = st2 at h2
  have h3 : AtZero (if checkNow cfg iter = true then st2 else residualsUpdate qp st2) := by
    split_ifs
    · exact h2
    · exact hr _ h2
  constructor
  · intro s e
    split_ifs at e
    rw [← Admm.StepResult.brk.inj e]
    exact ⟨h2.x, h2.y, h2.z, h2.q⟩
  · intro s e
    split_ifs at e <;> rw [← Admm.StepResult.cont.inj e]
    all_goals first | exact ha _ h2 | exact ha _ (hr _ h2) | exact h2

theorem loop_zero (hl : ∀ A, lin A 0 = 0) (hq : ZeroOpt qp) (n : ℕ) : ∀ (iter : ℤ) (st : State K N M), AtZero st → ∀ r, loop lin sq cfg qp n iter st = some r → AtZero r.2 := by
  induction n with
  | zero =>
    intro iter st h r e
    rw [← Option.some.inj e]
    exact h
  | succ n ih =>
    intro iter st h r e
    unfold loop at e
    obtain ⟨hb, hc⟩ := body_zero (sq := sq) (cfg := cfg) hl hq iter h
    rcases eb : body lin sq cfg qp iter st with _ | s | s <;> rw [eb] at e
    · simp at e
    · rw [← Option.some.inj e]
      exact hb s eb
    · exact ih _ _ (hc s eb) r e

/-- If zero is optimal without active constraints, the solver started at zero returns zero, whatever the settings and the history of the object. -/
theorem solve_zero (hl : ∀ A, lin A 0 = 0) (hI : cfg.adaptiveRho = true → cfg.adaptiveRhoInterval ≠ 0) (hq : ZeroOpt qp) (old : State K N M) :
    ∃ s, solve both lin sq cfg qp 0 0 old = some s ∧ s.x = 0 ∧ s.y = 0 := by
  obtain ⟨⟨it, st⟩, e⟩ := loop_total (lin := lin) (sq := sq) (qp := qp) hI cfg.maxIter.toNat 1 (setup both cfg qp 0 0 old)
  have h := loop_zero hl hq _ _ _ (show AtZero (setup both cfg qp 0 0 old) from ⟨rfl, rfl, by show qp.A *ᵥ 0 = 0; exact mulVec_zero _, rfl⟩) _ e
  unfold solve
  rw [e]
  refine ⟨_, rfl, ?_, ?_⟩
  · dsimp only
    split_ifs <;> exact h.x
  · dsimp only
    split_ifs <;> exact h.y

end PolyMPC.BoxAdmm

namespace PolyMPC.SqpSparse
open Ocp MpcSqp Sparse Sparse.Csc Spec AdmmSparse Matrix QuasiNewton

section Dense
variable {n me mi : ℕ} {both : Bool} {lin : BoxAdmm.KktMat ℝ n (me + mi) → (BoxAdmm.KktIdx n (me + mi) → ℝ) → (BoxAdmm.KktIdx n (me + mi) → ℝ)} {sq : ℝ → ℝ} {qcfg : QPBase.Settings ℝ}

/-- The solver with `boxADMM`, no preconditioner, the default line search, and an arbitrary update and regularisation of the Hessian. -/
noncomputable def withUpdate (both : Bool) (lin : BoxAdmm.KktMat ℝ n (me + mi) → (BoxAdmm.KktIdx n (me + mi) → ℝ) → (BoxAdmm.KktIdx n (me + mi) → ℝ)) (sq : ℝ → ℝ) (qcfg : QPBase.Settings ℝ)
    (eps : ℝ) (cfg : Sqp.Settings ℝ) (prob : Sqp.Problem ℝ n me mi) (bd : Sqp.Bounds ℝ n mi) (upd : Matrix (Fin n) (Fin n) ℝ → (Fin n → ℝ) → (Fin n → ℝ) → Option (Matrix (Fin n) (Fin n) ℝ))
    (reg : Matrix (Fin n) (Fin n) ℝ → Matrix (Fin n) (Fin n) ℝ) : Sqp.Env ℝ n me mi (Sqp.identityPrecond ℝ n (me + mi)) (boxQps both lin sq qcfg) :=
  ⟨cfg, prob, bd, upd, reg, Sqp.lineSearch eps cfg prob bd⟩

/-- A feasible point at which the gradient of the cost is zero. -/
structure AtRest (prob : Sqp.Problem ℝ n me mi) (bd : Sqp.Bounds ℝ n mi) (x : Fin n → ℝ) : Prop where
  feasible : NlpFeasible (prob.eq x) (prob.ineq x) bd.lbg bd.ubg x bd.lbx bd.ubx
  grad : prob.costGrad x = 0

theorem AtRest.qp {prob : Sqp.Problem ℝ n me mi} (hc : Sqp.Coherent prob) {bd : Sqp.Bounds ℝ n mi} {x : Fin n → ℝ} (h : AtRest prob bd x) (H : Matrix (Fin n) (Fin n) ℝ) :
    BoxAdmm.ZeroOpt (Sqp.formQP bd x H (prob.costGrad x) (prob.jac x) (prob.constr x)) where
  h := h.grad
  A i := by
    refine Fin.addCases (fun j => ?_) (fun j => ?_) i
    · have := h.feasible.1 j
      simp only [Sqp.formQP, Fin.addCases_left, (hc x).1, this, neg_zero, le_refl, and_self]
    · have := h.feasible.2.1 j
      simp only [Sqp.formQP, Fin.addCases_right, (hc x).2]
      constructor <;> linarith [this.1, this.2]
  x i := by
    have := h.feasible.2.2 i
    show bd.lbx i - x i ≤ 0 ∧ 0 ≤ bd.ubx i - x i
    constructor <;> linarith [this.1, this.2]

theorem infNorm_zero {ι : Type*} [Fintype ι] : infNorm (0 : ι → ℝ) = 0 := by
  rw [Sqp.infNorm_eq, norm_zero]

theorem infNorm_neg {ι : Type*} [Fintype ι] (v : ι → ℝ) : infNorm (-v) = infNorm v := by
  rw [Sqp.infNorm_eq, Sqp.infNorm_eq, norm_neg]

theorem lineSearch_still (eps : ℝ) (cfg : Sqp.Settings ℝ) (prob : Sqp.Problem ℝ n me mi) (bd : Sqp.Bounds ℝ n mi) (h x : Fin n → ℝ) (c : ℝ) :
    (Sqp.lineSearch eps cfg prob bd h 0 x 0 c).1 = 1 := by
  have hm : infNorm (0 : Sqp.Dual ℝ n me mi) = 0 := infNorm_zero
  unfold Sqp.lineSearch
  dsimp only
  rw [hm]
  rcases (cfg.lineSearchMaxIter - 1).toNat with _ | k
  · rfl
  · unfold Sqp.lineSearchLoop
    dsimp only
    rw [if_pos]
    simp

variable {eps : ℝ} {cfg : Sqp.Settings ℝ} {prob : Sqp.Problem ℝ n me mi} {bd : Sqp.Bounds ℝ n mi}
  {upd : Matrix (Fin n) (Fin n) ℝ → (Fin n → ℝ) → (Fin n → ℝ) → Option (Matrix (Fin n) (Fin n) ℝ)} {reg : Matrix (Fin n) (Fin n) ℝ → Matrix (Fin n) (Fin n) ℝ}

/-- One QP at rest: nothing moves, the multipliers become zero. -/
theorem qpStep_still (hl : ∀ A, lin A 0 = 0) (hI : qcfg.adaptiveRho = true → qcfg.adaptiveRhoInterval ≠ 0)
    {st : Sqp.State ℝ n me mi (Sqp.identityPrecond ℝ n (me + mi)) (boxQps both lin sq qcfg)} (h : BoxAdmm.ZeroOpt st.qp) :
    ∃ st', Sqp.qpStep (withUpdate both lin sq qcfg eps cfg prob bd upd reg) st = some st' ∧ st'.x = st.x ∧ st'.lam = 0 ∧ st'.stepPrev = 0 ∧ st'.primalNorm = 0 ∧
      st'.dualNorm = infNorm st.lam ∧ st'.iter = st.iter ∧ st'.callbacks = st.callbacks ∧ st'.status = st.status := by
  obtain ⟨s, e, hx, hy⟩ := BoxAdmm.solve_zero (both := both) (sq := sq) hl hI h st.qpMem
  have e' := boxQps_solve e
  rw [hx, hy] at e'
  refine ⟨_, qpStep_identity _ st e', ?_, ?_, ?_, ?_, ?_, rfl, rfl, rfl⟩
  · funext i
    show st.x i + _ * (0 : Fin n → ℝ) i = st.x i
    simp
  · funext i
    show st.lam i + (Sqp.lineSearch eps cfg prob bd st.qp.h 0 st.x 0 st.cost).1 * ((0 : Sqp.Dual ℝ n me mi) - st.lam) i = 0
    rw [lineSearch_still]
    simp
  · funext i
    show _ * (0 : Fin n → ℝ) i = 0
    simp
  · show _ * infNorm (0 : Fin n → ℝ) = 0
    rw [infNorm_zero, mul_zero]
  · show (Sqp.lineSearch eps cfg prob bd st.qp.h 0 st.x 0 st.cost).1 * infNorm ((0 : Sqp.Dual ℝ n me mi) - st.lam) = infNorm st.lam
    rw [lineSearch_still, one_mul, zero_sub, infNorm_neg]

variable [NeZero n]

theorem AtRest.violation {x : Fin n → ℝ} (h : AtRest prob bd x) (he : 0 ≤ cfg.epsPrim) : Sqp.maxConstraintsViolation prob bd x ≤ cfg.epsPrim := by
  rw [Sqp.maxViolation_le_iff]
  obtain ⟨h1, h2, h3⟩ := h.feasible
  refine ⟨he, fun i => ?_, fun i => ?_, fun i => ?_⟩
  · rw [h1, abs_zero]; exact he
  · constructor <;> linarith [(h2 i).1, (h2 i).2]
  · constructor <;> linarith [(h3 i).1, (h3 i).2]

/-- The three possible endings of a solve that starts at rest. -/
theorem solve_at_rest (hl : ∀ A, lin A 0 = 0) (hI : qcfg.adaptiveRho = true → qcfg.adaptiveRhoInterval ≠ 0) (hc : Sqp.Coherent prob)
    (he : 0 ≤ cfg.epsPrim) (hd : 0 ≤ cfg.epsDual) (st : Sqp.State ℝ n me mi (Sqp.identityPrecond ℝ n (me + mi)) (boxQps both lin sq qcfg)) {xg : Fin n → ℝ} (h : AtRest prob bd xg)
    (lg : Sqp.Dual ℝ n me mi) :
    (infNorm lg ≤ cfg.epsDual → ∃ r, Sqp.solveFrom (withUpdate both lin sq qcfg eps cfg prob bd upd reg) st xg lg = some r ∧ r.status = .SOLVED ∧ r.x = xg ∧ r.lam = 0 ∧ r.iter = 1) ∧
    (cfg.epsDual < infNorm lg → 1 < cfg.maxIter → (∀ B y, upd B 0 y = none) →
      Sqp.solveFrom (withUpdate both lin sq qcfg eps cfg prob bd upd reg) st xg lg = none) ∧
    (cfg.epsDual < infNorm lg → 1 < cfg.maxIter → (∀ B y, upd B 0 y = some B) →
      ∃ r, Sqp.solveFrom (withUpdate both lin sq qcfg eps cfg prob bd upd reg) st xg lg = some r ∧ r.status = .SOLVED ∧ r.x = xg ∧ r.lam = 0 ∧ r.iter = 2) := by
  set env := withUpdate both lin sq qcfg eps cfg prob bd upd reg with henv
  set st0 := Sqp.linearise env { st with x := xg, lam := lg, status := .MAX_ITER_EXCEEDED, qpIter := 0, iter := 1 } with hst0
  obtain ⟨st1, e1, hx1, hl1, hs1, hp1, hd1, hi1, -, -⟩ := qpStep_still (eps := eps) (cfg := cfg) (prob := prob) (bd := bd) (upd := upd) (reg := reg) hl hI (st := st0) (h.qp hc _)
  have hx1' : st1.x = xg := hx1
  have hd1' : st1.dualNorm = infNorm lg := hd1
  have hi1' : st1.iter = 1 := hi1
  have hv1 : (Sqp.measure env st1).maxViolation ≤ cfg.epsPrim := by
    show Sqp.maxConstraintsViolation prob bd st1.x ≤ _
    rw [hx1']
    exact h.violation he
  have hT : Sqp.terminated env (Sqp.measure env st1) = decide (infNorm lg ≤ cfg.epsDual) := by
    show (decide (st1.primalNorm ≤ cfg.epsPrim) && decide (st1.dualNorm ≤ cfg.epsDual) && decide ((Sqp.measure env st1).maxViolation ≤ cfg.epsPrim)) = _
    rw [hp1, hd1', decide_eq_true he, decide_eq_true hv1, Bool.true_and, Bool.and_true]
  have eS : Sqp.solveFrom env st xg lg = if Sqp.terminated env (Sqp.measure env st1) then some { Sqp.measure env st1 with status := .SOLVED }
      else Sqp.loop env (cfg.maxIter - 1).toNat (Sqp.measure env st1) := by
    unfold Sqp.solveFrom Sqp.solve
    dsimp only
    rw [show Sqp.qpStep env (Sqp.linearise env _) = some st1 from e1]
    rfl
  rw [hT] at eS
  refine ⟨fun hle => ?_, fun hlt hm hu => ?_, fun hlt hm hu => ?_⟩
  · rw [eS, decide_eq_true hle, if_pos rfl]
    exact ⟨_, rfl, rfl, hx1', hl1, hi1'⟩
  all_goals
    rw [eS, decide_eq_false (not_le.2 hlt), if_neg (by simp)]
    obtain ⟨k, hk⟩ : ∃ k, (cfg.maxIter - 1).toNat = k + 1 := ⟨(cfg.maxIter - 1).toNat - 1, by omega⟩
    rw [hk]
    unfold Sqp.loop
    rw [if_pos (show (Sqp.measure env st1).iter < env.cfg.maxIter by show st1.iter < _; rw [hi1']; exact hm)]
  · have : Sqp.updateLinearisation env { Sqp.measure env st1 with iter := (Sqp.measure env st1).iter + 1 } = none := by
      unfold Sqp.updateLinearisation
      show Option.map _ (upd st1.qp.H st1.stepPrev _) = none
      rw [hs1, hu]
      rfl
    rw [this]
    rfl
  · obtain ⟨st2, e2, hx2, hq2, hi2⟩ : ∃ st2, Sqp.updateLinearisation env { Sqp.measure env st1 with iter := (Sqp.measure env st1).iter + 1 } = some st2 ∧ st2.x = xg ∧
        BoxAdmm.ZeroOpt st2.qp ∧ st2.iter = 2 ∧ st2.lam = 0 := by
      unfold Sqp.updateLinearisation
      show ∃ st2, Option.map _ (upd st1.qp.H st1.stepPrev _) = some st2 ∧ _
      rw [hs1, hu]
      refine ⟨_, rfl, hx1', ?_, ?_, hl1⟩
      · show BoxAdmm.ZeroOpt (Sqp.formQP bd st1.x _ (prob.costGrad st1.x) (prob.jac st1.x) (prob.constr st1.x))
        rw [hx1']
        exact h.qp hc _
      · show st1.iter + 1 = 2
        rw [hi1']
        rfl
    obtain ⟨hi2, hl2⟩ := hi2
    obtain ⟨st3, e3, hx3, hl3, -, hp3, hd3, hi3, -, -⟩ := qpStep_still (eps := eps) (cfg := cfg) (prob := prob) (bd := bd) (upd := upd) (reg := reg) hl hI hq2
    rw [e2, Option.bind_some, show Sqp.qpStep env st2 = some st3 from e3, Option.bind_some]
    dsimp only
    have hcb : ∀ s, (Sqp.callback env s).x = s.x ∧ (Sqp.callback env s).lam = s.lam ∧ (Sqp.callback env s).primalNorm = s.primalNorm ∧ (Sqp.callback env s).dualNorm = s.dualNorm ∧
        (Sqp.callback env s).iter = s.iter := by
      intro s
      unfold Sqp.callback
      split_ifs <;> exact ⟨rfl, rfl, rfl, rfl, rfl⟩
    obtain ⟨c1, c2, c3, c4, c5⟩ := hcb st3
    have hv3 : (Sqp.measure env (Sqp.callback env st3)).maxViolation ≤ cfg.epsPrim := by
      show Sqp.maxConstraintsViolation prob bd (Sqp.callback env st3).x ≤ _
      rw [c1, hx3, hx2]
      exact h.violation he
    rw [if_pos]
    · exact ⟨_, rfl, rfl, c1.trans (hx3.trans hx2), c2.trans hl3, c5.trans (hi3.trans hi2)⟩
    · show (decide ((Sqp.callback env st3).primalNorm ≤ cfg.epsPrim) && decide ((Sqp.callback env st3).dualNorm ≤ cfg.epsDual) && decide ((Sqp.measure env (Sqp.callback env st3)).maxViolation ≤ cfg.epsPrim)) = true
      rw [c3, c4, hp3, hd3, hl2, infNorm_zero, decide_eq_true he, decide_eq_true hd, decide_eq_true hv3]
      rfl

end Dense

/-- The formula of the sparse update divides by zero for the zero step. -/
theorem blockBfgs_zero (d : Dims) (B : Matrix (Fin d.VAR) (Fin d.VAR) ℝ) (y : Fin d.VAR → ℝ) : blockBfgs d B 0 y = none := by
  unfold blockBfgs maskedBfgs
  rw [if_pos (zero_dotProduct _)]

/-- The default update leaves the matrix alone. -/
theorem bfgs_zero {n : ℕ} {eps : ℝ} (he : 0 < eps) (B : Matrix (Fin n) (Fin n) ℝ) (y : Fin n → ℝ) : bfgsUpdate eps B 0 y = some B := by
  unfold bfgsUpdate dampedPair
  simp [he]

variable {d : Dims} [NeZero d.VAR] {q : QpConf d} {reg : Matrix (Fin d.VAR) (Fin d.VAR) ℝ → Matrix (Fin d.VAR) (Fin d.VAR) ℝ}

theorem sparseRun_cons (k : Call d) (l : List (Call d)) (st : State q) :
    sparseRun (k :: l) st = (solveFrom k.c { st with o := k.obj st.o } k.xg k.lg).bind (sparseRun l) := List.foldlM_cons ..

/-- **C180.** After any solves on a sparse solver object, start it at a feasible point where the gradient of the cost is zero (a setpoint that has been reached), with multipliers
larger than the dual tolerance: the solve divides by zero in the Hessian update of the second iteration, although the point is the solution. With smaller multipliers it succeeds at once.
The dense solver with the default Hessian update, on whatever state, reports success at the same point in the second iteration. -/
theorem sparse_fails_at_solution {A : Approx ℝ} (hR : Regular d A) (hb : q.both = false) (hI : q.cfg.adaptiveRho = true → q.cfg.adaptiveRhoInterval ≠ 0)
    (hlin : ∀ M, q.lin M 0 = 0) {st st1 : State q} (hF : Fresh st) {l : List (Call d)} {k : Call d} (hl : ∀ k ∈ l, k.Good A reg) (hk : k.Good A reg)
    (e1 : sparseRun l st = some st1) (he : 0 ≤ k.c.cfg.epsPrim) (hd : 0 ≤ k.c.cfg.epsDual) (hm : 1 < k.c.cfg.maxIter) (heps : 0 < k.c.eps)
    (hrest : AtRest (problem A k.c.cb (k.obj st.o) k.c.sc) k.c.bd k.xg) :
    (k.c.cfg.epsDual < infNorm k.lg → solveFrom k.c { st1 with o := k.obj st1.o } k.xg k.lg = none) ∧
    (infNorm k.lg ≤ k.c.cfg.epsDual → ∃ st2, solveFrom k.c { st1 with o := k.obj st1.o } k.xg k.lg = some st2 ∧ st2.s.status = .SOLVED ∧ st2.s.x = k.xg ∧ st2.s.lam = 0) ∧
    ∀ s : q.Base, ∃ r, Sqp.solveFrom (Sqp.defaultEnv k.c.eps k.c.cfg (problem A k.c.cb (k.obj st.o) k.c.sc) k.c.bd) s k.xg k.lg = some r ∧ r.status = .SOLVED ∧ r.x = k.xg ∧
      r.lam = 0 ∧ r.iter ≤ 2 := by
  obtain ⟨rfl, hreg, f, g, L, m, hx⟩ := hk
  have h0 := (run_match hR hb hI st.o l hl st ⟨Reach.init hF.Je hF.Ji hF.J, Or.inl hF.H, by
    rw [hF.kkt]
    exact ⟨fun _ => rfl, fun _ _ _ => rfl⟩, fun h => by rw [hF.reuse] at h; simp at h⟩).2 st1 e1
  have e := (solve_match (o0 := k.obj st.o) hR hreg hb hI hx (st := { st1 with o := k.obj st1.o, s := { st1.s with x := k.xg, lam := k.lg } }) ⟨rfl, rfl, rfl⟩
    ⟨h0.jac, h0.hes, h0.clean, h0.reuse⟩).1
  have e' : (solveFrom k.c { st1 with o := k.obj st1.o } k.xg k.lg).map State.s
      = Sqp.solveFrom (withUpdate q.both q.lin q.sq q.cfg k.c.eps k.c.cfg (problem k.c.A k.c.cb (k.obj st.o) k.c.sc) k.c.bd (blockBfgs d) reg) st1.s k.xg k.lg := e
  have hco : Sqp.Coherent (problem k.c.A k.c.cb (k.obj st.o) k.c.sc) := problem_coherent hR.S hR.N hR.skew hx
  have key := fun upd reg s => solve_at_rest (both := q.both) (sq := q.sq) (eps := k.c.eps) (upd := upd) (reg := reg) hlin hI hco he hd s hrest k.lg
  refine ⟨fun hlt => ?_, fun hle => ?_, fun s => ?_⟩
  · have := (key (blockBfgs d) reg st1.s).2.1 hlt hm (blockBfgs_zero d)
    rw [this] at e'
    exact Option.map_eq_none_iff.1 e'
  · obtain ⟨r, er, h1, h2, h3, -⟩ := (key (blockBfgs d) reg st1.s).1 hle
    rw [er, Option.map_eq_some_iff] at e'
    obtain ⟨st2, e2, rfl⟩ := e'
    exact ⟨st2, e2, h1, h2, h3⟩
  · rcases le_or_gt (infNorm k.lg) k.c.cfg.epsDual with hle | hlt
    · obtain ⟨r, er, h1, h2, h3, h4⟩ := (key (bfgsUpdate k.c.eps) id s).1 hle
      exact ⟨r, er, h1, h2, h3, by omega⟩
    · obtain ⟨r, er, h1, h2, h3, h4⟩ := (key (bfgsUpdate k.c.eps) id s).2.2 hlt hm (bfgs_zero heps)
      exact ⟨r, er, h1, h2, h3, h4.le⟩

/-! ### The example: `x' = u`, cost `∫ x² + u²`, at the origin -/

/-- Bounds of the example, with the initial state free. -/
noncomputable def lqBox : Sqp.Bounds ℝ lqDims.VAR lqDims.NINEQ := ⟨fun _ => -10, fun _ => 10, fun _ => 0, fun _ => 0⟩

theorem lq_rest (lg) : AtRest (problem (chebApprox 1) lqSrc.cbs ((lqCall lqBox 2 0 lg).obj lqWrap.ocp) (lqConf lqBox).sc) lqBox 0 where
  feasible := by
    have hco := problem_coherent (sc := (lqConf lqBox).sc) (A := chebApprox 1) (o := lqWrap.ocp) (by decide) (by decide) (cheb_skew lqDims (by decide)) (lq_exact _)
    have hp := fun i => ((problem_parts (sc := (lqConf lqBox).sc) (A := chebApprox 1) (o := lqWrap.ocp) (by decide) (by decide) (cheb_skew lqDims (by decide)) (lq_exact _) 0).2.2 i).1
    refine ⟨fun i => ?_, fun i => absurd i.2 (by decide +revert), fun i => ?_⟩
    · have h1 := (hco 0).1 i
      have h2 := hp (Fin.castAdd _ i)
      rw [h2] at h1
      have h3 := lq_constraints (lqConf lqBox).sc 0 (r := i) i.2
      have h4 : (problem (chebApprox 1) lqSrc.cbs lqWrap.ocp (lqConf lqBox).sc).eq 0 i = 0 := by
        rw [← h1]
        refine h3.trans ?_
        have : Spec.ext (0 : Fin lqDims.VAR → ℝ) (i + 2) = 0 := by unfold Spec.ext; split_ifs <;> rfl
        rw [this]
        simp
      exact h4
    · show (-10 : ℝ) ≤ 0 ∧ (0 : ℝ) ≤ 10
      norm_num
  grad := by
    have h := lq_grad (lqConf lqBox).sc 0
    refine Eq.trans h ?_
    funext i
    simp

/-- Multipliers that are one too large make the sparse solver fail at the origin; after a first solve with zero multipliers, which succeeds. -/
theorem lq_fails (lin) (hlin : ∀ M, lin M 0 = 0) : ∃ st1, sparseRun [lqCall lqBox 2 0 0] (lqFresh lin) = some st1 ∧ st1.s.status = .SOLVED ∧
    sparseRun [lqCall lqBox 2 0 0, lqCall lqBox 2 0 fun _ => 1] (lqFresh lin) = none := by
  have hI : (lqQp lin).cfg.adaptiveRho = true → (lqQp lin).cfg.adaptiveRhoInterval ≠ 0 := fun h => by simp [lqQp, QPBase.Settings.default] at h
  have c1 : (0 : ℝ) ≤ Sqp.Settings.default.epsPrim := by norm_num [Sqp.Settings.default]
  have c2 : (0 : ℝ) ≤ Sqp.Settings.default.epsDual := by norm_num [Sqp.Settings.default]
  have c3 : 1 < (Sqp.Settings.default (K := ℝ)).maxIter := by norm_num [Sqp.Settings.default]
  have c4 : (0 : ℝ) < 1 / 10 ^ 15 := by positivity
  obtain ⟨-, h2, -⟩ := sparse_fails_at_solution (reg := id) (q := lqQp lin) lq_regular rfl hI hlin (lqFresh_fresh lin) (l := []) (k := lqCall lqBox 2 0 0) (by simp) (lqCall_good _ _ _ _) rfl
    c1 c2 c3 c4 (lq_rest _)
  obtain ⟨st1, e1, hs, -⟩ := h2 (by show infNorm (0 : Sqp.Dual ℝ lqDims.VAR lqDims.NEQ lqDims.NINEQ) ≤ _; rw [infNorm_zero]; exact c2)
  have e1' : sparseRun [lqCall lqBox 2 0 0] (lqFresh lin) = some st1 := by
    rw [sparseRun_cons, e1]
    rfl
  obtain ⟨h1, -, -⟩ := sparse_fails_at_solution (reg := id) (q := lqQp lin) lq_regular rfl hI hlin (lqFresh_fresh lin) (k := lqCall lqBox 2 0 fun _ => 1)
    (fun k hk => by rw [List.mem_singleton.1 hk]; exact lqCall_good _ _ _ _) (lqCall_good _ _ _ _) e1' c1 c2 c3 c4 (lq_rest _)
  refine ⟨st1, e1', hs, ?_⟩
  rw [sparseRun_cons, e1, Option.bind_some, sparseRun_cons, h1]
  · rfl
  · refine lt_of_lt_of_le ?_ (le_infNorm _ (Sum.inr 0))
    show (Sqp.Settings.default (K := ℝ)).epsDual < |(1 : ℝ)|
    norm_num [Sqp.Settings.default]

end PolyMPC.SqpSparse
