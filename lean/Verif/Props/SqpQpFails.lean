import Verif.Model.SqpBox
import Verif.Props.BoxAdmmRefines
import Verif.Props.Sqp

/-!
# Property C192: SQP ignores that its QP solver has failed

The cost is `(x - 1)² / 2`, the variable is between -1000 and 1000, and there is one constraint that is never active and badly scaled: `-10⁹ ≤ 10⁶ x ≤ 10⁹`. From every
guess at a distance of at most 10 from the minimiser 1 and with the default settings `solve` reports SOLVED after one iteration and returns the guess, up to `10⁻³`.
-/

set_option linter.unusedSectionVars false

namespace PolyMPC.Sqp
open PolyMPC.Spec

universe u

variable {K : Type u} [Field K] [LinearOrder K] [IsStrictOrderedRing K] {n me mi : ℕ} {qps : QPSolver K n (me + mi)}

/-- What the step does, given the result of the QP solver; without preconditioner. -/
theorem qpStep_result (env : Env K n me mi (identityPrecond K n (me + mi)) qps) (st : State K n me mi (identityPrecond K n (me + mi)) qps)
    {mem : qps.Mem} {p : Fin n → K} {l : Dual K n me mi} {it : ℤ} (h : qps.solve st.qpMem st.qp = (mem, p, l, it)) :
    ∃ st1, qpStep env st = some st1 ∧ st1.x = (fun i => st.x i + (env.stepSize st.qp.h l st.x p st.cost).1 * p i) ∧
      st1.primalNorm = (env.stepSize st.qp.h l st.x p st.cost).1 * infNorm p ∧
      st1.dualNorm = (env.stepSize st.qp.h l st.x p st.cost).1 * infNorm (l - st.lam) ∧ st1.iter = st.iter ∧ st1.qpMem = mem ∧
      st1.lam = (fun i => st.lam i + (env.stepSize st.qp.h l st.x p st.cost).1 * (l - st.lam) i) ∧ st1.lamK = l := by
  refine ⟨_, rfl, ?_⟩
  simp only [identityPrecond, h, and_self]

theorem terminated_measure_iff [NeZero n] {prec : Precond K n (me + mi)} (env : Env K n me mi prec qps) (st : State K n me mi prec qps) :
    terminated env (measure env st) = true ↔
      st.primalNorm ≤ env.cfg.epsPrim ∧ st.dualNorm ≤ env.cfg.epsDual ∧ maxConstraintsViolation env.prob env.bd st.x ≤ env.cfg.epsPrim := by
  unfold terminated measure
  rw [Bool.and_eq_true, Bool.and_eq_true, decide_eq_true_iff, decide_eq_true_iff, decide_eq_true_iff, and_assoc]

theorem solveFrom_first [NeZero n] {prec : Precond K n (me + mi)} (env : Env K n me mi prec qps) (st st1 : State K n me mi prec qps) (x : Fin n → K)
    (l : Dual K n me mi)
    (h1 : qpStep env (linearise env { st with x := x, lam := l, status := .MAX_ITER_EXCEEDED, qpIter := 0, iter := 1 }) = some st1)
    (ht : terminated env (measure env st1) = true) : solveFrom env st x l = some { measure env st1 with status := .SOLVED } := by
  unfold solveFrom solve
  simp only [h1, Option.bind_some, ht, if_true]

end PolyMPC.Sqp

namespace PolyMPC.Sqp.QpFails
open Matrix PolyMPC.Spec PolyMPC.QPBase

/-- The problem. -/
noncomputable def prob : Problem ℝ 1 0 1 where
  cost x := (x 0 - 1) ^ 2 / 2
  eq _ := Fin.elim0
  ineq x := fun _ => 10 ^ 6 * x 0
  costGrad x := fun _ => x 0 - 1
  constr x := fun _ => 10 ^ 6 * x 0
  jac _ := Matrix.of fun _ _ => 10 ^ 6
  lagGrad x l := fun _ => x 0 - 1 + 10 ^ 6 * l (Sum.inl 0) + l (Sum.inr 0)
  lagHess _ _ := Matrix.of fun _ _ => 1

/-- Its bounds. -/
def bd : Bounds ℝ 1 1 where
  lbx := fun _ => -1000
  ubx := fun _ => 1000
  lbg := fun _ => -10 ^ 9
  ubg := fun _ => 10 ^ 9

/-- The QP of the first iteration at `x0 = 1 - D`. -/
noncomputable def qpAt (D : ℝ) : QP ℝ 1 (0 + 1) where
  H := Matrix.of fun _ _ => 1
  h := fun _ => -D
  A := Matrix.of fun _ _ => 10 ^ 6
  Alb := fun _ => -(10 ^ 6 * (1 - D)) - 10 ^ 9
  Aub := fun _ => -(10 ^ 6 * (1 - D)) + 10 ^ 9
  xlb := fun _ => -1000 - (1 - D)
  xub := fun _ => 1000 - (1 - D)

theorem formQP_eq (D : ℝ) (x : Fin 1 → ℝ) (hx : x 0 = 1 - D) (lam : Dual ℝ 1 0 1) :
    formQP bd x (prob.lagHess x lam) (prob.costGrad x) (prob.jac x) (prob.constr x) = qpAt D := by
  have h1 : ∀ i, x i = 1 - D := fun i => by rw [Subsingleton.elim i 0, hx]
  simp only [formQP, qpAt, prob, QP.mk.injEq, true_and]
  refine ⟨by funext i; rw [hx]; ring, ?_, ?_, ?_, ?_⟩
  · funext i
    refine Fin.addCases (fun i => i.elim0) (fun i => ?_) i
    rw [Fin.addCases_right, hx]; simp only [bd]; ring
  · funext i
    refine Fin.addCases (fun i => i.elim0) (fun i => ?_) i
    rw [Fin.addCases_right, hx]; simp only [bd]
  · funext i; rw [h1]; rfl
  · funext i; rw [h1]; rfl

theorem qpAt_convex (D : ℝ) : (qpAt D).Convex := by
  refine ⟨rfl, fun x => ?_⟩
  simp only [qpAt, dotProduct, Matrix.mulVec, Finset.univ_unique, Finset.sum_singleton, Matrix.of_apply]
  nlinarith [mul_self_nonneg (x default)]

section Run

variable {both : Bool} {lin : BoxAdmm.KktMat ℝ 1 (0 + 1) → (BoxAdmm.KktIdx 1 (0 + 1) → ℝ) → (BoxAdmm.KktIdx 1 (0 + 1) → ℝ)} {sq : ℝ → ℝ}
  {cfg : QPBase.Settings ℝ} {old : BoxAdmm.State ℝ 1 (0 + 1)} {D : ℝ}

/-- The iterates: multipliers zero, `x` a small part `t` of the way to the solution `D`. -/
def Slow (D t : ℝ) (s : BoxAdmm.State ℝ 1 (0 + 1)) : Prop :=
  s.x = (fun _ => t * D) ∧ s.q = (fun _ => t * D) ∧ s.z = (fun _ => 10 ^ 6 * (t * D)) ∧ s.y = 0

/-- One pass moves by at most `10⁻⁶` of the distance, whatever the step size within its limits. -/
theorem slow_update (hex : BoxAdmm.ExactSolver both lin) (hsig : 0 < cfg.sigma) (ha : cfg.alpha = 1) (ho : BoxAdmm.CleanCorner old.kkt)
    (hD : |D| ≤ 10) {s : BoxAdmm.State ℝ 1 (0 + 1)} (hi : BoxAdmm.StepInv both cfg (qpAt D) old.kkt s) (hr : 1 / 10 ^ 6 ≤ s.rho) {t : ℝ} {k : ℕ} (hk : k < 100)
    (ht0 : 0 ≤ t) (ht : t ≤ k / 10 ^ 6) (hs : Slow D t s) :
    ∃ t' : ℝ, 0 ≤ t' ∧ t' ≤ (k + 1 : ℕ) / 10 ^ 6 ∧ Slow D t' (BoxAdmm.admmUpdate lin cfg (qpAt D) s) := by
  obtain ⟨hx, hq, hz, hy⟩ := hs
  have hrp : 0 < s.rho := lt_of_lt_of_le (by norm_num) hr
  have hD1 := (abs_le.mp hD).1
  have hD2 := (abs_le.mp hD).2
  have hcl : ∀ i, classify ((qpAt D).Alb i) ((qpAt D).Aub i) = .INEQUALITY_CONSTRAINT := by
    intro i
    have n1 : ¬((qpAt D).Alb i < -looseBoundsThresh ∧ (qpAt D).Aub i > looseBoundsThresh) := by
      rintro ⟨h1, h2⟩; simp only [qpAt, looseBoundsThresh] at h1; linarith
    have n2 : ¬((qpAt D).Aub i - (qpAt D).Alb i < eqTol) := by
      intro h; simp only [qpAt, eqTol] at h; linarith
    unfold classify
    rw [if_neg n1, if_neg n2]
  have hrv : ∀ i, s.rhoVec i = s.rho := by
    intro i; rw [hi.rv, hi.ct]; simp only [parseConstr, hcl]; rfl
  have hrpos := hi.rhoVec_pos hrp
  have hbpos := hi.rhoVecBox_pos hrp
  have hinv : ∀ i, s.rhoVec i * s.rhoInvVec i = 1 := fun i => by rw [hi.ri]; exact mul_inv_cancel₀ (hrpos i).ne'
  have hipos : ∀ i, 0 < s.rhoInvVec i := fun i => by rw [hi.ri]; exact inv_pos.mpr (hrpos i)
  have hbinv : ∀ i, s.rhoVecBox i * s.rhoVecBoxInv i = 1 := fun i => by rw [hi.rbi]; exact mul_inv_cancel₀ (hbpos i).ne'
  obtain ⟨xt, nu, huniq, hxt, hzt⟩ := BoxAdmm.exact_step hex (qpAt_convex D) hsig ho (hi.fact.trans hi.kkt) hipos hbpos
  obtain ⟨e1, e2⟩ := (huniq xt nu).mpr ⟨rfl, rfl⟩
  have f1 := congrFun e1 0
  have f2 := e2 0
  have i0 : s.rhoInvVec 0 * s.rho = 1 := by rw [← hrv 0, mul_comm]; exact hinv 0
  have hy1 : headM s.y 0 = 0 := by rw [hy]; rfl
  have hy2 : tailN s.y 0 = 0 := by rw [hy]; rfl
  have hy1' : ∀ i, headM s.y i = 0 := fun i => by rw [hy]; rfl
  have hy2' : ∀ i, tailN s.y i = 0 := fun i => by rw [hy]; rfl
  simp only [qpAt, Matrix.mulVec, dotProduct, Finset.univ_unique, Finset.sum_singleton, Matrix.of_apply, Pi.add_apply, Pi.smul_apply, smul_eq_mul,
    Matrix.transpose_apply] at f1 f2
  have sum1 : ∀ f : Fin (0 + 1) → ℝ, ∑ i, f i = f 0 := fun f => Fin.sum_univ_one f
  rw [hx, hq, sum1] at f1
  rw [hz] at f2
  have hss : Subsingleton (Fin (0 + 1)) := inferInstanceAs (Subsingleton (Fin 1))
  have d1 : (default : Fin 1) = 0 := rfl
  simp only [d1, hy1, hy2, one_mul, mul_zero, sub_zero, sub_neg_eq_add] at f1 f2
  set b := s.rhoVecBox 0 with hb
  have hb0 : 0 < b := hbpos 0
  set w := 1 + cfg.sigma + b + s.rho * 10 ^ 12 with hw
  have hw1 : 10 ^ 6 ≤ w := by
    have : (1 / 10 ^ 6 : ℝ) * 10 ^ 12 ≤ s.rho * 10 ^ 12 := mul_le_mul_of_nonneg_right hr (by norm_num)
    rw [hw]; norm_num at this ⊢; linarith
  have hw0 : 0 < w := by linarith
  have hnu : nu 0 = s.rho * (10 ^ 6 * (xt 0 - t * D)) := by
    linear_combination -s.rho * f2 - nu 0 * i0
  have hxt0 : xt 0 = (t + (1 - t) / w) * D := by
    have h1 : w * xt 0 = w * (t * D) + (D - t * D) := by
      rw [hnu] at f1
      rw [hw]; linear_combination f1
    have h2 : w * xt 0 = w * ((t + (1 - t) / w) * D) := by rw [h1]; field_simp
    exact mul_left_cancel₀ hw0.ne' h2
  have ht1 : t ≤ 1 := by
    have : (k : ℝ) ≤ 100 := by exact_mod_cast hk.le
    refine ht.trans ?_
    rw [div_le_one (by norm_num)]; norm_num; linarith
  have hc0 : 0 ≤ (1 - t) / w := div_nonneg (by linarith) hw0.le
  have hc1 : (1 - t) / w ≤ 1 / 10 ^ 6 := div_le_div₀ zero_le_one (by linarith) (by norm_num) hw1
  set t' := t + (1 - t) / w with ht'
  have hb' : t' ≤ (k + 1 : ℕ) / 10 ^ 6 := by push_cast; rw [add_div]; linarith
  have hb2 : t' ≤ 1 / 10 ^ 4 := by
    have : ((k + 1 : ℕ) : ℝ) ≤ 100 := by exact_mod_cast hk
    exact hb'.trans ((div_le_div_of_nonneg_right this (by norm_num)).trans (by norm_num))
  have h0' : 0 ≤ t' := by linarith
  have hsmall : |t' * D| ≤ 1 / 1000 := by
    rw [abs_mul, abs_of_nonneg h0']
    calc t' * |D| ≤ 1 / 10 ^ 4 * 10 := mul_le_mul hb2 hD (abs_nonneg _) (by norm_num)
      _ = 1 / 1000 := by norm_num
  have s1 := (abs_le.mp hsmall).1
  have s2 := (abs_le.mp hsmall).2
  have hxu : (BoxAdmm.admmUpdate lin cfg (qpAt D) s).x = fun _ => t' * D := by
    funext i
    have : (BoxAdmm.admmUpdate lin cfg (qpAt D) s).x i = BoxAdmm.xUpdate cfg.alpha (BoxAdmm.admmUpdate lin cfg (qpAt D) s).xTilde i := rfl
    rw [this, BoxAdmm.xUpdate_apply, hxt, ha, Subsingleton.elim i 0, hxt0]; ring
  have hpa : ∀ i, BoxAdmm.projArg lin cfg (qpAt D) s i = 10 ^ 6 * (t' * D) := by
    intro i
    rw [BoxAdmm.projArg, hzt, ha, hz]
    simp only [hy1', mul_zero, sub_zero, add_zero, sub_self, zero_mul, one_mul]
    rw [Subsingleton.elim i 0, hnu, ← hxt0]
    linear_combination (10 ^ 6 * (xt 0 - t * D)) * i0
  have hpb : ∀ i, BoxAdmm.projArgBox lin cfg (qpAt D) s i = t' * D := by
    intro i
    rw [BoxAdmm.projArgBox, hxu, hy2', mul_zero, add_zero]
  have hzu : (BoxAdmm.admmUpdate lin cfg (qpAt D) s).z = fun _ => 10 ^ 6 * (t' * D) := by
    funext i
    rw [BoxAdmm.admmUpdate_z, hpa, max_eq_left, min_eq_left]
    · simp only [qpAt]; norm_num; linarith
    · simp only [qpAt]; norm_num; linarith
  have hqu : (BoxAdmm.admmUpdate lin cfg (qpAt D) s).q = fun _ => t' * D := by
    funext i
    rw [BoxAdmm.admmUpdate_q, hpb, max_eq_left, min_eq_left]
    · simp only [qpAt]; linarith
    · simp only [qpAt]; linarith
  refine ⟨t', h0', hb', hxu, hqu, hzu, ?_⟩
  funext i
  rcases i with i | i
  · rw [BoxAdmm.admmUpdate_yA _ _ (hinv i), hpa, hzu, sub_self, mul_zero]; rfl
  · rw [BoxAdmm.admmUpdate_yB _ _ (hbinv i), hpb, hqu, sub_self, mul_zero]; rfl

theorem slow_same {D t : ℝ} {s u : BoxAdmm.State ℝ 1 (0 + 1)} (h : BoxAdmm.SameIter s u) (hu : Slow D t u) : Slow D t s :=
  ⟨h.1.trans hu.1, h.2.2.2.1.trans hu.2.1, h.2.2.1.trans hu.2.2.1, h.2.1.trans hu.2.2.2⟩

theorem rho_lower (hr : 1 / 10 ^ 6 ≤ cfg.rho) {qp : QP ℝ 1 (0 + 1)} {xg yg} {k : ℕ} {s : BoxAdmm.State ℝ 1 (0 + 1)}
    (h : BoxAdmm.Running both lin sq cfg qp xg yg old k s) : 1 / 10 ^ 6 ≤ s.rho := by
  rcases BoxAdmm.rho_running h with h | h
  · rw [h]; exact hr
  · refine le_trans (le_of_eq ?_) h.2.1
    unfold BoxAdmm.rhoMin; norm_num

theorem slow_running (hex : BoxAdmm.ExactSolver both lin) (hsig : 0 < cfg.sigma) (ha : cfg.alpha = 1) (ho : BoxAdmm.CleanCorner old.kkt)
    (hr : 1 / 10 ^ 6 ≤ cfg.rho) (hD : |D| ≤ 10) {k : ℕ} {s : BoxAdmm.State ℝ 1 (0 + 1)}
    (h : BoxAdmm.Running both lin sq cfg (qpAt D) 0 0 old k s) (hk : k ≤ 100) :
    ∃ t : ℝ, 0 ≤ t ∧ t ≤ k / 10 ^ 6 ∧ Slow D t s := by
  induction h with
  | init =>
    refine ⟨0, le_rfl, by norm_num, ?_, ?_, ?_, rfl⟩
    · funext i; simp [BoxAdmm.setup, BoxAdmm.factorise, BoxAdmm.rhoVecUpdate]
    · funext i; simp [BoxAdmm.setup, BoxAdmm.factorise, BoxAdmm.rhoVecUpdate]
    · funext i; simp [BoxAdmm.setup, BoxAdmm.factorise, BoxAdmm.rhoVecUpdate]
  | cont hrun hb ih =>
    obtain ⟨t, h0, h1, hs⟩ := ih (by omega)
    obtain ⟨t', h0', h1', hs'⟩ := slow_update hex hsig ha ho hD (BoxAdmm.stepInv_running hrun) (rho_lower hr hrun) (by omega) h0 h1 hs
    exact ⟨t', h0', h1', slow_same (BoxAdmm.body_sameIter (Or.inl hb)) hs'⟩

/-- The result of the QP solver. -/
theorem qp_result (hex : BoxAdmm.ExactSolver both lin) (hsig : 0 < cfg.sigma) (ha : cfg.alpha = 1) (ho : BoxAdmm.CleanCorner old.kkt)
    (hr : 1 / 10 ^ 6 ≤ cfg.rho) (hm : cfg.maxIter = 100) (hD : |D| ≤ 10) {s : BoxAdmm.State ℝ 1 (0 + 1)}
    (h : BoxAdmm.solve both lin sq cfg (qpAt D) 0 0 old = some s) :
    ∃ t : ℝ, 0 ≤ t ∧ t ≤ 1 / 10 ^ 4 ∧ Slow D t s := by
  rcases BoxAdmm.solve_cases h with ⟨j, s1, s2, hrun, hb, hj, rfl⟩ | ⟨s1, hrun, rfl⟩
  · rw [hm] at hj
    have hj' : j < 100 := by exact_mod_cast (by omega : (j : ℤ) < 100)
    obtain ⟨t, h0, h1, hs⟩ := slow_running hex hsig ha ho hr hD hrun hj'.le
    obtain ⟨t', h0', h1', hs'⟩ := slow_update hex hsig ha ho hD (BoxAdmm.stepInv_running hrun) (rho_lower hr hrun) hj' h0 h1 hs
    refine ⟨t', h0', h1'.trans ?_, slow_same (s := s2) (BoxAdmm.body_sameIter (Or.inr hb)) hs'⟩
    have : ((j + 1 : ℕ) : ℝ) ≤ 100 := by exact_mod_cast hj'
    exact (div_le_div_of_nonneg_right this (by norm_num)).trans (by norm_num)
  · have e : cfg.maxIter.toNat = 100 := by rw [hm]; rfl
    rw [e] at hrun
    obtain ⟨t, h0, h1, hs⟩ := slow_running hex hsig ha ho hr hD hrun le_rfl
    exact ⟨t, h0, h1.trans (by norm_num), hs⟩

/-- The QP solver gives up. -/
theorem qp_not_solved (hex : BoxAdmm.ExactSolver both lin) (hsig : 0 < cfg.sigma) (ha : cfg.alpha = 1) (ho : BoxAdmm.CleanCorner old.kkt)
    (hr : 1 / 10 ^ 6 ≤ cfg.rho) (hm : cfg.maxIter = 100) (he : cfg.epsAbs = 1 / 10000) (he' : cfg.epsRel = 1 / 10000) (hD : |D| ≤ 10) (hD' : 1 / 1000 ≤ |D|)
    {s : BoxAdmm.State ℝ 1 (0 + 1)} (h : BoxAdmm.solve both lin sq cfg (qpAt D) 0 0 old = some s) :
    s.info.status = .MAX_ITER_EXCEEDED := by
  rcases BoxAdmm.status_iter h with ⟨hs, -⟩ | ⟨hs, -⟩
  · exfalso
    obtain ⟨t, h0, h1, hx, hq, hz, hy⟩ := qp_result hex hsig ha ho hr hm hD h
    have hd := (BoxAdmm.solved_residuals h hs).2.1
    have hg : (qpAt D).lagrangianGradient s.x s.y = fun _ => (t - 1) * D := by
      funext i
      rw [hx, hy]
      simp [QP.lagrangianGradient, qpAt, Matrix.mulVec, dotProduct, QP.yA, QP.yBox]
      ring
    have hsc : Admm.dualScale (qpAt D) s.x s.y ≤ |D| := by
      rw [hx, hy]
      have ht1 : |t * D| ≤ |D| := by
        rw [abs_mul, abs_of_nonneg h0]
        exact mul_le_of_le_one_left (abs_nonneg _) (h1.trans (by norm_num))
      simp only [Admm.dualScale]
      refine max_le ?_ (max_le ?_ (max_le ?_ ?_)) <;> rw [infNorm_le_iff] <;> refine ⟨abs_nonneg _, fun i => ?_⟩
      · simpa [qpAt, Matrix.mulVec, dotProduct] using ht1
      · simp [Matrix.mulVec, dotProduct, QP.yA]
      · simp [qpAt]
      · simp [QP.yBox]
    have hle := le_infNorm ((qpAt D).lagrangianGradient s.x s.y) 0
    rw [hg] at hle hd
    rw [he, he'] at hd
    have e : |(t - 1) * D| = (1 - t) * |D| := by rw [abs_mul, abs_sub_comm, abs_of_nonneg (by linarith)]
    simp only [e] at hle
    nlinarith [abs_nonneg D]
  · exact hs

end Run

theorem lineSearchLoop_first {n : ℕ} {tau eta phi Dphi mu : ℝ} {cost viol : (Fin n → ℝ) → ℝ} {x p : Fin n → ℝ} {fuel : ℕ} {alpha logged : ℝ}
    (h : cost (fun i => alpha * p i + x i) + mu * viol (fun i => alpha * p i + x i) ≤ phi + alpha * eta * Dphi) :
    (lineSearchLoop tau eta phi Dphi mu cost viol x p (fuel + 1) alpha logged).1 = alpha := by
  simp only [lineSearchLoop, if_pos h]

/-- The line search accepts the full step. -/
theorem lineSearch_one (eps D t : ℝ) (h0 : 0 ≤ t) (h1 : t ≤ 1) (x : Fin 1 → ℝ) (hx : x 0 = 1 - D) (logged : ℝ) :
    (lineSearch eps Settings.default prob bd (fun _ => -D) 0 x (fun _ => t * D) logged).1 = 1 := by
  have hmu : infNorm (0 : Dual ℝ 1 0 1) = 0 := by
    apply le_antisymm _ (infNorm_nonneg _)
    rw [infNorm_le_iff]; simp
  have hf : ((Settings.default : Settings ℝ).lineSearchMaxIter - 1).toNat = 98 + 1 := rfl
  unfold lineSearch
  simp only [hmu, hf]
  refine lineSearchLoop_first ?_
  simp only [prob, hx, Settings.default, dotProduct, Finset.univ_unique, Finset.sum_singleton]
  nlinarith [sq_nonneg D, mul_nonneg h0 (sq_nonneg D), mul_nonneg (mul_nonneg h0 (sub_nonneg.mpr h1)) (sq_nonneg D)]

theorem violation (x : Fin 1 → ℝ) (hx : |x 0| ≤ 12) : maxConstraintsViolation prob bd x ≤ 0 := by
  have h1 := (abs_le.mp hx).1
  have h2 := (abs_le.mp hx).2
  have hi : ∀ i : Fin 1, x i = x 0 := fun i => by rw [Subsingleton.elim i 0]
  simp only [maxConstraintsViolation, lt_irrefl, if_false, zero_lt_one, dif_pos]
  refine max_le (max_le (max_le (max_le le_rfl ?_) ?_) ?_) ?_ <;> rw [maxCoeff, Finset.sup'_le_iff] <;> intro i _ <;>
    simp only [bd, prob, hi i] <;> linarith

variable {both : Bool} {lin : BoxAdmm.KktMat ℝ 1 (0 + 1) → (BoxAdmm.KktIdx 1 (0 + 1) → ℝ) → (BoxAdmm.KktIdx 1 (0 + 1) → ℝ)} {sq : ℝ → ℝ}

/-- C192. With default settings, the default QP solver (exact arithmetic and linear solves) and a guess `x0` at a distance of at most 10 from the
minimiser 1, `solve` reports SOLVED after one iteration, and the returned point differs from the guess by at most `10⁻⁴` times the distance of the guess from
the minimiser. The QP solver has reported MAX_ITER_EXCEEDED, unless the guess was already within `10⁻³` of the minimiser. -/
theorem solved_at_the_guess (hex : BoxAdmm.ExactSolver both lin) (eps x0 : ℝ) (hx0 : |1 - x0| ≤ 10)
    (st : State ℝ 1 0 1 (identityPrecond ℝ 1 (0 + 1)) (SqpSparse.boxQps both lin sq qpSettings)) (ho : BoxAdmm.CleanCorner (BoxAdmm.State.kkt st.qpMem)) :
    ∃ r, solveFrom (boxEnv both lin sq qpSettings eps Settings.default prob bd) st (fun _ => x0) 0 = some r ∧ r.status = .SOLVED ∧ r.iter = 1 ∧
      |r.x 0 - x0| ≤ 1 / 10 ^ 4 * |1 - x0| ∧
      (1 / 1000 ≤ |1 - x0| → (BoxAdmm.State.info r.qpMem).status = .MAX_ITER_EXCEEDED) := by
  set D := 1 - x0 with hD
  have hxD : x0 = 1 - D := by rw [hD]; ring
  set env := boxEnv both lin sq qpSettings eps Settings.default prob bd with henv
  obtain ⟨s, hs⟩ := Option.isSome_iff_exists.mp (BoxAdmm.solve_defined (both := both) (lin := lin) (sq := sq) (cfg := qpSettings) (qp := qpAt D) (xg := 0) (yg := 0)
    (old := st.qpMem) (Or.inr (by simp [qpSettings])))
  have hq1 : (0 : ℝ) < (qpSettings : QPBase.Settings ℝ).sigma := by norm_num [qpSettings]
  have hq2 : (1 : ℝ) / 10 ^ 6 ≤ (qpSettings : QPBase.Settings ℝ).rho := by norm_num [qpSettings]
  obtain ⟨t, h0, h1, hsx, -, -, hsy⟩ := qp_result hex hq1 rfl ho hq2 rfl hx0 hs
  set st0 : State ℝ 1 0 1 (identityPrecond ℝ 1 (0 + 1)) (SqpSparse.boxQps both lin sq qpSettings) :=
    linearise env { st with x := fun _ => x0, lam := 0, status := .MAX_ITER_EXCEEDED, qpIter := 0, iter := 1 } with hst0
  have hqp : st0.qp = qpAt D := formQP_eq D _ hxD 0
  have hsol : (SqpSparse.boxQps both lin sq qpSettings).solve st0.qpMem st0.qp = (s, s.x, s.y, s.info.iter) := by
    have : BoxAdmm.solve both lin sq qpSettings st0.qp 0 0 st0.qpMem = some s := by rw [hqp]; exact hs
    simp only [SqpSparse.boxQps, this]
  have hα : (env.stepSize st0.qp.h s.y st0.x s.x st0.cost).1 = 1 := by
    rw [hsy, hsx, hqp]
    exact lineSearch_one eps D t h0 (h1.trans (by norm_num)) (fun _ => x0) hxD st0.cost
  obtain ⟨st1, hst1, k1, k2, k3, k4, k5, -, -⟩ := qpStep_result env st0 hsol
  rw [hα, one_mul] at k2 k3
  have k1' : st1.x = fun _ => x0 + t * D := by
    rw [k1, hα, hsx]; funext i; rw [one_mul]; rfl
  have k3' : st1.dualNorm = infNorm (0 : Dual ℝ 1 0 1) := by
    rw [k3, hsy]; congr 1; funext i; exact sub_self _
  rw [hsx] at k2
  have habs : |t * D| ≤ 1 / 10 ^ 4 * |D| := by
    rw [abs_mul, abs_of_nonneg h0]; exact mul_le_mul_of_nonneg_right h1 (abs_nonneg _)
  have hterm : terminated env (measure env st1) = true := by
    rw [terminated_measure_iff]
    have e1 : env.cfg.epsPrim = 1 / 1000 := rfl
    have e2 : env.cfg.epsDual = 1 / 1000 := rfl
    rw [k2, k3', e1, e2]
    refine ⟨?_, ?_, ?_⟩
    · rw [infNorm_le_iff]; exact ⟨by norm_num, fun _ => habs.trans (by linarith)⟩
    · rw [infNorm_le_iff]; exact ⟨by norm_num, fun _ => by simp⟩
    · refine (violation _ ?_).trans (by norm_num)
      rw [k1']
      have a1 := abs_le.mp hx0
      have a2 := abs_le.mp (habs.trans (by linarith : 1 / 10 ^ 4 * |D| ≤ 1))
      rw [abs_le]; constructor <;> linarith [a1.1, a1.2, a2.1, a2.2]
  refine ⟨{ measure env st1 with status := .SOLVED }, ?_, rfl, k4, ?_, ?_⟩
  · exact solveFrom_first env st st1 _ _ hst1 hterm
  · change |st1.x 0 - x0| ≤ _
    rw [k1']
    simpa using habs
  · intro hb
    change (BoxAdmm.State.info st1.qpMem).status = _
    rw [k5]
    exact qp_not_solved hex hq1 rfl ho hq2 rfl rfl rfl hx0 hb hs

/-- The point 1 is feasible and the only minimiser: from the guess 11 the solver reports SOLVED with a cost of more than 49, the minimum being 0. -/
theorem guess_eleven (hex : BoxAdmm.ExactSolver both lin) (eps : ℝ)
    (st : State ℝ 1 0 1 (identityPrecond ℝ 1 (0 + 1)) (SqpSparse.boxQps both lin sq qpSettings)) (ho : BoxAdmm.CleanCorner (BoxAdmm.State.kkt st.qpMem)) :
    (∃ r, solveFrom (boxEnv both lin sq qpSettings eps Settings.default prob bd) st (fun _ => 11) 0 = some r ∧ r.status = .SOLVED ∧ 49 < prob.cost r.x) ∧
    (∀ i, bd.lbx i ≤ 1 ∧ 1 ≤ bd.ubx i) ∧ (∀ i, bd.lbg i ≤ prob.ineq (fun _ => 1) i ∧ prob.ineq (fun _ => 1) i ≤ bd.ubg i) ∧
    ∀ x : Fin 1 → ℝ, 0 ≤ prob.cost x ∧ (prob.cost x = 0 ↔ x = fun _ => 1) := by
  refine ⟨?_, fun i => by norm_num [bd], fun i => by norm_num [bd, prob], fun x => ⟨?_, ?_⟩⟩
  · obtain ⟨r, h1, h2, -, h3, -⟩ := solved_at_the_guess (sq := sq) hex eps 11 (by rw [abs_le]; norm_num) st ho
    refine ⟨r, h1, h2, ?_⟩
    have e : |(1 : ℝ) - 11| = 10 := by rw [abs_of_neg] <;> norm_num
    rw [e] at h3
    have := abs_le.mp h3
    simp only [prob]
    nlinarith [this.1, this.2]
  · simp only [prob]; positivity
  · simp only [prob]
    constructor
    · intro h
      funext i
      have : (x 0 - 1) ^ 2 = 0 := by linarith
      rw [Subsingleton.elim i 0]
      have := pow_eq_zero_iff (two_ne_zero) |>.mp this
      linarith
    · intro h; rw [h]; norm_num

/-- The assumptions are met by a new solver object and the inverse of the matrix as linear solver. -/
example : ∃ lin : BoxAdmm.KktMat ℝ 1 (0 + 1) → (BoxAdmm.KktIdx 1 (0 + 1) → ℝ) → (BoxAdmm.KktIdx 1 (0 + 1) → ℝ), BoxAdmm.ExactSolver true lin ∧
    BoxAdmm.CleanCorner (BoxAdmm.fresh (M := 0 + 1) (qpSettings : QPBase.Settings ℝ) 0 (0 : Fin 1 → ℝ) 0).kkt := by
  refine ⟨fun A b => (BoxAdmm.effective true A)⁻¹ *ᵥ b, fun A b hdet => ?_, BoxAdmm.cleanCorner_fresh _ _ _ _⟩
  rw [Matrix.mulVec_mulVec, Matrix.mul_nonsing_inv _ (isUnit_iff_ne_zero.mpr hdet), Matrix.one_mulVec]

end PolyMPC.Sqp.QpFails
