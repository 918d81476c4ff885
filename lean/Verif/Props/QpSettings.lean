import Verif.Props.BoxAdmm
import Verif.Lemmas.QP

/-!
# Property C239: settings of the QP solver outside their documented ranges

The comments of `qp_solver_settings_t` (qp_base.hpp:21-37) give a range for every setting; no setting is checked. The
theorems say what `ADMM::solve` does with settings outside the ranges.
-/

set_option linter.unusedSectionVars false

namespace PolyMPC.Admm
open Matrix PolyMPC.Spec PolyMPC.QPBase

variable {K : Type*} [Field K] [LinearOrder K] [IsStrictOrderedRing K] {N M : ℕ}
variable {both : Bool} {lin : KktMat K N M → (KktIdx N M → K) → (KktIdx N M → K)} {sq : K → K} {cfg : Settings K}
  {qp : QP K N M} {xg : Fin N → K} {yg : Fin M ⊕ Fin N → K} {old : State K N M}

/-! ## Negative intervals -/

theorem checkNow_neg (cfg : Settings K) (iter : ℤ) :
    checkNow { cfg with checkTermination := -cfg.checkTermination } iter = checkNow cfg iter := by
  simp only [checkNow, Int.tmod_neg, ne_eq, neg_eq_zero]

theorem loop_neg_check (n : ℕ) : ∀ (it : ℤ) (st : State K N M),
    loop lin sq { cfg with checkTermination := -cfg.checkTermination } qp n it st = loop lin sq cfg qp n it st := by
  induction n with
  | zero => intro it st; rfl
  | succ n ih =>
    intro it st
    have hb : body lin sq { cfg with checkTermination := -cfg.checkTermination } qp it st =
        body lin sq cfg qp it st := by
      unfold body
      rw [checkNow_neg]
      rfl
    simp only [loop, hb, ih]

theorem loop_neg_interval (n : ℕ) : ∀ (it : ℤ) (st : State K N M),
    loop lin sq { cfg with adaptiveRhoInterval := -cfg.adaptiveRhoInterval } qp n it st =
      loop lin sq cfg qp n it st := by
  induction n with
  | zero => intro it st; rfl
  | succ n ih =>
    intro it st
    have hb : body lin sq { cfg with adaptiveRhoInterval := -cfg.adaptiveRhoInterval } qp it st =
        body lin sq cfg qp it st := by
      unfold body
      simp only [Int.tmod_neg, neg_eq_zero]
      rfl
    simp only [loop, hb, ih]

/-- C239. A negative `check_termination` acts as its absolute value. -/
theorem neg_check_termination (both : Bool) (lin : KktMat K N M → (KktIdx N M → K) → (KktIdx N M → K)) (sq : K → K)
    (cfg : Settings K) (qp : QP K N M) (xg : Fin N → K) (yg : Fin M ⊕ Fin N → K) (old : State K N M) :
    solve both lin sq { cfg with checkTermination := -cfg.checkTermination } qp xg yg old =
      solve both lin sq cfg qp xg yg old := by
  unfold solve
  rw [loop_neg_check]
  rfl

/-- C239. A negative `adaptive_rho_interval` acts as its absolute value. -/
theorem neg_adaptive_rho_interval (both : Bool) (lin : KktMat K N M → (KktIdx N M → K) → (KktIdx N M → K))
    (sq : K → K) (cfg : Settings K) (qp : QP K N M) (xg : Fin N → K) (yg : Fin M ⊕ Fin N → K) (old : State K N M) :
    solve both lin sq { cfg with adaptiveRhoInterval := -cfg.adaptiveRhoInterval } qp xg yg old =
      solve both lin sq cfg qp xg yg old := by
  unfold solve
  rw [loop_neg_interval]
  rfl

/-! ## Interval zero -/

/-- C239. With `adaptive_rho` and a zero interval `solve` is undefined, unless it makes no pass at all or the
termination test of the first pass succeeds. -/
theorem interval_zero (ha : cfg.adaptiveRho = true) (hi : cfg.adaptiveRhoInterval = 0) :
    solve both lin sq cfg qp xg yg old = none ↔
      1 ≤ cfg.maxIter ∧ ¬ ((cfg.checkTermination = 1 ∨ cfg.checkTermination = -1) ∧
        terminationCriteria cfg (residualsUpdate qp
          (admmUpdate lin cfg qp (setup both cfg qp xg yg old))) = true) := by
  have hck : checkNow cfg 1 = true ↔ (cfg.checkTermination = 1 ∨ cfg.checkTermination = -1) := by
    simp only [checkNow, Bool.and_eq_true, decide_eq_true_eq]
    constructor
    · rintro ⟨_, h1⟩
      have := Int.dvd_of_tmod_eq_zero h1
      exact Int.isUnit_iff.mp (isUnit_of_dvd_one this)
    · rintro (h | h) <;> rw [h] <;> decide
  have hsome : solve both lin sq cfg qp xg yg old = none ↔
      loop lin sq cfg qp cfg.maxIter.toNat 1 (setup both cfg qp xg yg old) = none := by
    unfold solve
    cases loop lin sq cfg qp cfg.maxIter.toNat 1 (setup both cfg qp xg yg old) <;> simp
  rw [hsome]
  by_cases hm : 1 ≤ cfg.maxIter
  · obtain ⟨n, hn⟩ : ∃ n, cfg.maxIter.toNat = n + 1 := ⟨cfg.maxIter.toNat - 1, by omega⟩
    rw [hn]
    simp only [hm, true_and, loop]
    rw [← hck]
    rcases body_cases (lin := lin) (sq := sq) (cfg := cfg) (qp := qp) 1 (setup both cfg qp xg yg old) with
      ⟨s, hb, hc, _, ht⟩ | ⟨hb, _⟩ | ⟨s2, hs2, hf, hb | ⟨_, h0, _⟩⟩
    · rw [hb]; simp [hc, ht]
    · rw [hb]
      simp only [true_iff]
      rintro ⟨hc, ht⟩
      unfold body at hb
      simp [hc, ht] at hb
    · exfalso
      unfold body at hb
      simp only [ha, if_true, hi] at hb
      have hne : ∀ (c : Bool) (s t : State K N M), (if c = true then StepResult.brk s else StepResult.ub) ≠
          StepResult.cont t := by
        intro c s t; cases c <;> simp
      exact hne _ _ _ hb
    · exact absurd hi h0
  · have : cfg.maxIter.toNat = 0 := by omega
    rw [this]
    simp [loop, hm]

/-! ## Tolerances -/

/-- C239. With a negative absolute and a nonpositive relative tolerance `solve` never reports SOLVED. -/
theorem negative_tolerance (he : cfg.epsAbs < 0) (hr : cfg.epsRel ≤ 0) {st : State K N M}
    (h : solve both lin sq cfg qp xg yg old = some st) : st.info.status = .MAX_ITER_EXCEEDED := by
  rcases status_cases h with hs | hs
  · have h1 := (solved_residuals h hs).1
    have h2 : 0 ≤ infNorm (qp.rows st.x - st.z) := infNorm_nonneg _
    have h3 : 0 ≤ primalScale qp st.x st.z := le_max_of_le_left (infNorm_nonneg _)
    have h4 := mul_nonpos_of_nonpos_of_nonneg hr h3
    exact absurd (h2.trans h1) (by linarith)
  · exact hs

/-! ## Relaxation parameter -/

/-- C239. With `alpha = 0` no pass changes the primal point: whatever the problem, `solve` returns the guess. -/
theorem alpha_zero (ha : cfg.alpha = 0) {st : State K N M}
    (h : solve both lin sq cfg qp xg yg old = some st) : st.x = xg := by
  have hx : ∀ s : State K N M, (admmUpdate lin cfg qp s).x = s.x := by
    intro s; funext i
    change cfg.alpha * _ + (1 - cfg.alpha) * s.x i = s.x i
    rw [ha]; ring
  have hrun : ∀ {k : ℕ} {s : State K N M}, Running both lin sq cfg qp xg yg old k s → s.x = xg := by
    intro k s hr
    induction hr with
    | init => rfl
    | cont _ hb ih => rw [(body_sameIter (Or.inl hb)).1, hx, ih]
  rcases solve_cases h with ⟨j, s, s', hr, hb, _, rfl⟩ | ⟨s, hr, rfl⟩
  · change s'.x = xg
    rw [(body_sameIter (Or.inr hb)).1, hx, hrun hr]
  · change s.x = xg
    exact hrun hr

/-! ## Negative step size -/

/-- A row that the solver does not regard as unbounded: one of its bounds is within `±1e10`. -/
def NotLoose (qp : QP K N M) : Prop :=
  ∀ i, -looseBoundsThresh ≤ qp.lower i ∨ qp.upper i ≤ looseBoundsThresh

theorem rhoVec_neg (hl : NotLoose qp) (hrho : cfg.rho < 0) (ha : cfg.adaptiveRho = false) {k : ℕ} {st : State K N M}
    (h : Running both lin sq cfg qp xg yg old k st) (i : Fin M ⊕ Fin N) : st.rhoVec i < 0 := by
  have hi := stepInv_running h
  have hr : st.rho = cfg.rho := by
    rcases rho_running h with h | h
    · exact h
    · rw [ha] at h; exact absurd h.1 (by simp)
  have key : ∀ lb ub : K, (-looseBoundsThresh ≤ lb ∨ ub ≤ looseBoundsThresh) → rhoEntry (classify lb ub) st.rho < 0 := by
    intro lb ub hb
    have h0 : ¬ (lb < -looseBoundsThresh ∧ ub > looseBoundsThresh) := by
      rintro ⟨h1, h2⟩
      rcases hb with hb | hb
      · exact absurd h1 (not_lt.mpr hb)
      · exact absurd h2 (not_lt.mpr hb)
    unfold classify
    rw [if_neg h0]
    by_cases h1 : ub - lb < eqTol
    · rw [if_pos h1]
      show rhoEqFactor * st.rho < 0
      unfold rhoEqFactor
      rw [hr]; linarith
    · rw [if_neg h1]
      show st.rho < 0
      rw [hr]; exact hrho
  rw [hi.rv, hi.ct, hi.bt]
  rcases i with i | i
  · exact key _ _ (hl (Sum.inl i))
  · exact key _ _ (hl (Sum.inr i))

/-- C239. With a negative `rho` the signs of the multipliers are reversed after every pass: the negated multipliers are
in the normal cone, that is a positive multiplier belongs to a *lower* bound and a negative one to an *upper* bound. -/
theorem reversed_signs (hc : qp.Consistent) (hl : NotLoose qp) (hrho : cfg.rho < 0) (ha : cfg.adaptiveRho = false)
    {k : ℕ} {st : State K N M} (h : AfterPass both lin sq cfg qp xg yg old k st) :
    QP.InNormalCone qp.lower qp.upper st.z (-st.y) := by
  intro i
  refine ⟨z_within_bounds hc h i, ?_⟩
  obtain ⟨k', st', rfl, hr, hb⟩ := h
  have hneg := rhoVec_neg hl hrho ha hr i
  have hinv : st'.rhoVec i * st'.rhoInvVec i = 1 := by
    rw [(stepInv_running hr).ri]; exact mul_inv_cancel₀ hneg.ne
  have hs := body_sameIter hb
  rw [Pi.neg_apply, hs.2.1, hs.2.2.1, admmUpdate_y _ _ hinv, admmUpdate_z]
  constructor
  · intro hy
    refine clip_of_lt ?_
    nlinarith
  · intro hy
    refine clip_of_gt (hc i) ?_
    nlinarith

/-- The program with the cost negated. -/
def negated (qp : QP K N M) : QP K N M := { qp with H := -qp.H, h := -qp.h }

theorem negated_objective (qp : QP K N M) (x : Fin N → K) : (negated qp).objective x = -qp.objective x := by
  simp only [negated, QP.objective, Matrix.neg_mulVec, dotProduct_neg, neg_dotProduct]
  ring

theorem negated_gradient (qp : QP K N M) (x : Fin N → K) (y : Fin M ⊕ Fin N → K) :
    (negated qp).lagrangianGradient x (-y) = -qp.lagrangianGradient x y := by
  have h1 : QP.yA (-y) = -QP.yA y := rfl
  have h2 : QP.yBox (-y) = -QP.yBox y := rfl
  simp only [negated, QP.lagrangianGradient, h1, h2, Matrix.neg_mulVec, Matrix.mulVec_neg]
  abel

/-- C239. With a negative `rho` (and `adaptive_rho` off) SOLVED on a linear program, and on any program with a concave
cost, means that the point returned *maximises* the cost, up to the residuals: no feasible point costs more. -/
theorem negative_rho_maximises (hc : qp.Consistent) (hl : NotLoose qp) (hrho : cfg.rho < 0)
    (ha : cfg.adaptiveRho = false) (hH : qp.Hᵀ = qp.H) (hneg : ∀ x, x ⬝ᵥ qp.H *ᵥ x ≤ 0) {st : State K N M}
    (h : solve both lin sq cfg qp xg yg old = some st) (hs : st.info.status = .SOLVED) {w : Fin N → K}
    (hw : qp.Feasible w) :
    qp.objective w ≤ qp.objective st.x + st.info.resDual * oneNorm (st.x - w) + st.info.resPrim * oneNorm st.y := by
  obtain ⟨k, s, hp, _, hy, hz⟩ := solved_afterPass h hs
  have hn := reversed_signs hc hl hrho ha hp
  rw [hy, hz] at hn
  obtain ⟨_, _, h3, h4⟩ := solved_residuals h hs
  have hconv : (negated qp).Convex := by
    refine ⟨?_, fun x => ?_⟩
    · simp only [negated, Matrix.transpose_neg, hH]
    · simp only [negated, Matrix.neg_mulVec, dotProduct_neg]
      linarith [hneg x]
  have := (negated qp).near_optimal hconv st.x w (-st.y) st.z hn hw
  have hi : infNorm (-qp.lagrangianGradient st.x st.y) = infNorm (qp.lagrangianGradient st.x st.y) := by
    simp only [infNorm, Pi.neg_apply, abs_neg]
  have ho : oneNorm (-st.y) = oneNorm st.y := by simp only [oneNorm, Pi.neg_apply, abs_neg]
  rw [negated_objective, negated_objective, negated_gradient, hi, ho] at this
  rw [h3, h4]
  have hr : (negated qp).rows st.x = qp.rows st.x := rfl
  rw [hr] at this
  linarith

/-! ## Non-vacuity -/

/-- minimise `x` subject to `0 ≤ x ≤ 1` and `-1 ≤ x ≤ 2`: the minimiser is `0`. -/
def lineLP : QP ℚ 1 1 where
  H := fun _ _ => 0
  h := fun _ => 1
  A := fun _ _ => 1
  Alb := fun _ => -1
  Aub := fun _ => 2
  xlb := fun _ => 0
  xub := fun _ => 1

/-- The default settings with the sign of `rho` reversed and a test in every pass. -/
def reversedCfg : Settings ℚ := { (Settings.default : Settings ℚ) with rho := -1/10, checkTermination := 1 }

theorem lineLP_consistent : lineLP.Consistent := by
  intro i; rcases i with i | i <;> norm_num [QP.lower, QP.upper, lineLP]

theorem lineLP_notLoose : NotLoose lineLP := by
  intro i; rcases i with i | i <;> norm_num [QP.lower, QP.upper, lineLP, looseBoundsThresh]

/-- C239. With `rho = -0.1` the solver reports SOLVED within a hundredth of `x = 1`, where the cost is largest; with
`rho = 0.1` and otherwise the same settings it reports SOLVED within a hundredth of the minimiser `x = 0`. -/
theorem negative_rho_wrong :
    ((solveCold false exampleLin id reversedCfg lineLP (fresh reversedCfg (fun _ => 0) (fun _ => 0) 0)).map fun st =>
      (st.info.status, decide (|st.x 0 - 1| ≤ 1/100))) = some (.SOLVED, true) ∧
    ((solveCold false exampleLin id { reversedCfg with rho := 1/10 } lineLP
      (fresh reversedCfg (fun _ => 0) (fun _ => 0) 0)).map fun st =>
      (st.info.status, decide (|st.x 0| ≤ 1/100))) = some (.SOLVED, true) := by
  constructor <;> decide +kernel

/-- Settings with `adaptive_rho` on and interval zero. -/
def zeroIntervalCfg : Settings ℚ :=
  { reversedCfg with rho := 1/10, adaptiveRho := true, adaptiveRhoInterval := 0 }

/-- Interval zero: undefined for the example, and defined if the test of the first pass succeeds. -/
example : (solveCold false exampleLin id zeroIntervalCfg lineLP
      (fresh reversedCfg (fun _ => 0) (fun _ => 0) 0)).isNone = true ∧
    ((solveCold false exampleLin id { zeroIntervalCfg with checkTermination := -1, epsAbs := 1000 } lineLP
      (fresh reversedCfg (fun _ => 0) (fun _ => 0) 0)).map fun st => st.info.status) = some .SOLVED := by
  constructor <;> decide +kernel

/-- Negative tolerances and `alpha = 0` on the example: no SOLVED, and the point 5 of the guess comes back although it
is outside the bounds. -/
example : ((solve false exampleLin id { reversedCfg with rho := 1/10, maxIter := 30, epsAbs := -1/1000, epsRel := 0 }
      lineLP (fun _ => 0) (fun _ => 0) (fresh reversedCfg (fun _ => 0) (fun _ => 0) 0)).map fun st =>
        st.info.status) = some .MAX_ITER_EXCEEDED ∧
    ((solve false exampleLin id { reversedCfg with rho := 1/10, maxIter := 30, alpha := 0 }
      lineLP (fun _ => 5) (fun _ => 0) (fresh reversedCfg (fun _ => 0) (fun _ => 0) 0)).map fun st =>
        (st.info.status, st.x 0)) = some (.MAX_ITER_EXCEEDED, 5) := by
  constructor <;> decide +kernel

end PolyMPC.Admm

namespace PolyMPC.BoxAdmm
open Matrix PolyMPC.Spec PolyMPC.QPBase
open PolyMPC.Admm (dualScale StepResult clip_mem clip_of_lt clip_of_gt)

variable {K : Type*} [Field K] [LinearOrder K] [IsStrictOrderedRing K] {N M : ℕ}
variable {both : Bool} {lin : KktMat K N M → (KktIdx N M → K) → (KktIdx N M → K)} {sq : K → K} {cfg : Settings K}
  {qp : QP K N M} {xg : Fin N → K} {yg : Fin M ⊕ Fin N → K} {old : State K N M}

/-! ## Negative intervals -/

theorem checkNow_neg (cfg : Settings K) (iter : ℤ) :
    checkNow { cfg with checkTermination := -cfg.checkTermination } iter = checkNow cfg iter := by
  simp only [checkNow, Int.tmod_neg, ne_eq, neg_eq_zero]

theorem loop_neg_check (n : ℕ) : ∀ (it : ℤ) (st : State K N M),
    loop lin sq { cfg with checkTermination := -cfg.checkTermination } qp n it st = loop lin sq cfg qp n it st := by
  induction n with
  | zero => intro it st; rfl
  | succ n ih =>
    intro it st
    have hb : body lin sq { cfg with checkTermination := -cfg.checkTermination } qp it st =
        body lin sq cfg qp it st := by
      unfold body
      rw [checkNow_neg]
      rfl
    simp only [loop, hb, ih]

theorem loop_neg_interval (n : ℕ) : ∀ (it : ℤ) (st : State K N M),
    loop lin sq { cfg with adaptiveRhoInterval := -cfg.adaptiveRhoInterval } qp n it st =
      loop lin sq cfg qp n it st := by
  induction n with
  | zero => intro it st; rfl
  | succ n ih =>
    intro it st
    have hb : body lin sq { cfg with adaptiveRhoInterval := -cfg.adaptiveRhoInterval } qp it st =
        body lin sq cfg qp it st := by
      unfold body
      simp only [Int.tmod_neg, neg_eq_zero]
      rfl
    simp only [loop, hb, ih]

/-- C239, boxADMM. A negative `check_termination` acts as its absolute value. -/
theorem neg_check_termination (both : Bool) (lin : KktMat K N M → (KktIdx N M → K) → (KktIdx N M → K)) (sq : K → K)
    (cfg : Settings K) (qp : QP K N M) (xg : Fin N → K) (yg : Fin M ⊕ Fin N → K) (old : State K N M) :
    solve both lin sq { cfg with checkTermination := -cfg.checkTermination } qp xg yg old =
      solve both lin sq cfg qp xg yg old := by
  unfold solve
  rw [loop_neg_check]
  rfl

/-- C239, boxADMM. A negative `adaptive_rho_interval` acts as its absolute value. -/
theorem neg_adaptive_rho_interval (both : Bool) (lin : KktMat K N M → (KktIdx N M → K) → (KktIdx N M → K))
    (sq : K → K) (cfg : Settings K) (qp : QP K N M) (xg : Fin N → K) (yg : Fin M ⊕ Fin N → K) (old : State K N M) :
    solve both lin sq { cfg with adaptiveRhoInterval := -cfg.adaptiveRhoInterval } qp xg yg old =
      solve both lin sq cfg qp xg yg old := by
  unfold solve
  rw [loop_neg_interval]
  rfl

/-! ## Interval zero -/

/-- C239, boxADMM. With `adaptive_rho` and a zero interval `solve` is undefined, unless it makes no pass at all or the
termination test of the first pass succeeds. -/
theorem interval_zero (ha : cfg.adaptiveRho = true) (hi : cfg.adaptiveRhoInterval = 0) :
    solve both lin sq cfg qp xg yg old = none ↔
      1 ≤ cfg.maxIter ∧ ¬ ((cfg.checkTermination = 1 ∨ cfg.checkTermination = -1) ∧
        terminationCriteria cfg (residualsUpdate qp
          (admmUpdate lin cfg qp (setup both cfg qp xg yg old))) = true) := by
  have hck : checkNow cfg 1 = true ↔ (cfg.checkTermination = 1 ∨ cfg.checkTermination = -1) := by
    simp only [checkNow, Bool.and_eq_true, decide_eq_true_eq]
    constructor
    · rintro ⟨_, h1⟩
      have := Int.dvd_of_tmod_eq_zero h1
      exact Int.isUnit_iff.mp (isUnit_of_dvd_one this)
    · rintro (h | h) <;> rw [h] <;> decide
  have hsome : solve both lin sq cfg qp xg yg old = none ↔
      loop lin sq cfg qp cfg.maxIter.toNat 1 (setup both cfg qp xg yg old) = none := by
    unfold solve
    cases loop lin sq cfg qp cfg.maxIter.toNat 1 (setup both cfg qp xg yg old) <;> simp
  rw [hsome]
  by_cases hm : 1 ≤ cfg.maxIter
  · obtain ⟨n, hn⟩ : ∃ n, cfg.maxIter.toNat = n + 1 := ⟨cfg.maxIter.toNat - 1, by omega⟩
    rw [hn]
    simp only [hm, true_and, loop]
    rw [← hck]
    rcases body_cases (lin := lin) (sq := sq) (cfg := cfg) (qp := qp) 1 (setup both cfg qp xg yg old) with
      ⟨s, hb, hc, _, ht⟩ | ⟨hb, _⟩ | ⟨s2, hs2, hf, hb | ⟨_, h0, _⟩⟩
    · rw [hb]; simp [hc, ht]
    · rw [hb]
      simp only [true_iff]
      rintro ⟨hc, ht⟩
      unfold body at hb
      simp [hc, ht] at hb
    · exfalso
      unfold body at hb
      simp only [ha, if_true, hi] at hb
      have hne : ∀ (c : Bool) (s t : State K N M), (if c = true then StepResult.brk s else StepResult.ub) ≠
          StepResult.cont t := by
        intro c s t; cases c <;> simp
      exact hne _ _ _ hb
    · exact absurd hi h0
  · have : cfg.maxIter.toNat = 0 := by omega
    rw [this]
    simp [loop, hm]

/-! ## Negative step size -/

open PolyMPC.Admm (NotLoose negated negated_objective negated_gradient)

theorem rhoEntry_neg {lb ub r : K} (hb : -looseBoundsThresh ≤ lb ∨ ub ≤ looseBoundsThresh) (hr : r < 0) :
    rhoEntry (classify lb ub) r < 0 := by
  have h0 : ¬ (lb < -looseBoundsThresh ∧ ub > looseBoundsThresh) := by
    rintro ⟨h1, h2⟩
    rcases hb with hb | hb
    · exact absurd h1 (not_lt.mpr hb)
    · exact absurd h2 (not_lt.mpr hb)
  unfold classify
  rw [if_neg h0]
  by_cases h1 : ub - lb < eqTol
  · rw [if_pos h1]
    show rhoEqFactor * r < 0
    unfold rhoEqFactor
    linarith
  · rw [if_neg h1]
    exact hr

/-- C239, boxADMM. With a negative `rho` the signs of the multipliers are reversed after every pass. -/
theorem reversed_signs (hc : qp.Consistent) (hl : NotLoose qp) (hrho : cfg.rho < 0) (ha : cfg.adaptiveRho = false)
    {k : ℕ} {st : State K N M} (h : AfterPass both lin sq cfg qp xg yg old k st) :
    QP.InNormalCone qp.lower qp.upper st.aux (-st.y) := by
  obtain ⟨k', st', rfl, hr, hb⟩ := h
  have hi := stepInv_running hr
  have hrn : st'.rho < 0 := by
    rcases rho_running hr with h | h
    · rw [h]; exact hrho
    · rw [ha] at h; exact absurd h.1 (by simp)
  have hs := body_sameIter hb
  intro i
  rcases i with i | i
  · have hneg : st'.rhoVec i < 0 := by
      rw [hi.rv, hi.ct]; exact rhoEntry_neg (hl (Sum.inl i)) hrn
    have hinv : st'.rhoVec i * st'.rhoInvVec i = 1 := by rw [hi.ri]; exact mul_inv_cancel₀ hneg.ne
    have hz : st.aux (Sum.inl i) = (admmUpdate lin cfg qp st').z i := congrFun hs.2.2.1 i
    have hl : qp.Alb i ≤ qp.Aub i := hc (Sum.inl i)
    rw [hz, Pi.neg_apply, hs.2.1, admmUpdate_yA _ _ hinv, admmUpdate_z]
    refine ⟨clip_mem hl, fun hy => clip_of_lt ?_, fun hy => clip_of_gt hl ?_⟩ <;> nlinarith
  · have hneg : st'.rhoVecBox i < 0 := by
      rw [hi.rb, hi.bt]; exact rhoEntry_neg (hl (Sum.inr i)) hrn
    have hinv : st'.rhoVecBox i * st'.rhoVecBoxInv i = 1 := by rw [hi.rbi]; exact mul_inv_cancel₀ hneg.ne
    have hz : st.aux (Sum.inr i) = (admmUpdate lin cfg qp st').q i := congrFun hs.2.2.2.1 i
    have hl : qp.xlb i ≤ qp.xub i := hc (Sum.inr i)
    rw [hz, Pi.neg_apply, hs.2.1, admmUpdate_yB _ _ hinv, admmUpdate_q]
    refine ⟨clip_mem hl, fun hy => clip_of_lt ?_, fun hy => clip_of_gt hl ?_⟩ <;> nlinarith

/-- C239, boxADMM. With a negative `rho` (and `adaptive_rho` off) SOLVED on a linear program, and on any program with a
concave cost, means that the point returned *maximises* the cost, up to the residuals. -/
theorem negative_rho_maximises (hc : qp.Consistent) (hl : NotLoose qp) (hrho : cfg.rho < 0)
    (ha : cfg.adaptiveRho = false) (hH : qp.Hᵀ = qp.H) (hneg : ∀ x, x ⬝ᵥ qp.H *ᵥ x ≤ 0) {st : State K N M}
    (h : solve both lin sq cfg qp xg yg old = some st) (hs : st.info.status = .SOLVED) {w : Fin N → K}
    (hw : qp.Feasible w) :
    qp.objective w ≤ qp.objective st.x + st.info.resDual * oneNorm (st.x - w) + st.info.resPrim * oneNorm st.y := by
  obtain ⟨k, s, hp, _, hy, hz⟩ := solved_afterPass h hs
  have hn := reversed_signs hc hl hrho ha hp
  rw [hy, hz] at hn
  obtain ⟨_, _, h3, h4⟩ := solved_residuals h hs
  have hconv : (negated qp).Convex := by
    refine ⟨?_, fun x => ?_⟩
    · simp only [negated, Matrix.transpose_neg, hH]
    · simp only [negated, Matrix.neg_mulVec, dotProduct_neg]
      linarith [hneg x]
  have := (negated qp).near_optimal hconv st.x w (-st.y) st.aux hn hw
  have hi : infNorm (-qp.lagrangianGradient st.x st.y) = infNorm (qp.lagrangianGradient st.x st.y) := by
    simp only [infNorm, Pi.neg_apply, abs_neg]
  have ho : oneNorm (-st.y) = oneNorm st.y := by simp only [oneNorm, Pi.neg_apply, abs_neg]
  rw [negated_objective, negated_objective, negated_gradient, hi, ho] at this
  rw [h3, h4]
  have hr : (negated qp).rows st.x = qp.rows st.x := rfl
  rw [hr] at this
  have h5 := mul_le_mul_of_nonneg_right (rows_sub_aux_le qp st) (oneNorm_nonneg st.y)
  linarith

/-! ## Tolerances and relaxation parameter -/

/-- C239, boxADMM. With a negative absolute and a nonpositive relative tolerance `solve` never reports SOLVED. -/
theorem negative_tolerance (he : cfg.epsAbs < 0) (hr : cfg.epsRel ≤ 0) {st : State K N M}
    (h : solve both lin sq cfg qp xg yg old = some st) : st.info.status = .MAX_ITER_EXCEEDED := by
  rcases status_iter h with ⟨hs, _⟩ | ⟨hs, _⟩
  · have h1 := (solved_residuals h hs).1
    have h2 : 0 ≤ infNorm (qp.A *ᵥ st.x - st.z) + infNorm (st.x - st.q) :=
      add_nonneg (infNorm_nonneg _) (infNorm_nonneg _)
    have h3 : 0 ≤ boxPrimalScale qp st.x st.z := le_max_of_le_left (infNorm_nonneg _)
    have h4 := mul_nonpos_of_nonpos_of_nonneg hr h3
    exact absurd (h2.trans h1) (by linarith)
  · exact hs

/-- C239, boxADMM. With `alpha = 0` or `alpha = 2` every pass sets the primal point to zero: unless it makes no pass
(`max_iter ≤ 0`), `solve` returns zero, whatever the problem and the guess. -/
theorem alpha_zero_or_two (ha : cfg.alpha = 0 ∨ cfg.alpha = 2) (hm : 1 ≤ cfg.maxIter) {st : State K N M}
    (h : solve both lin sq cfg qp xg yg old = some st) : st.x = 0 := by
  have hx : ∀ s : State K N M, (admmUpdate lin cfg qp s).x = 0 := by
    intro s; funext i
    have hu : (admmUpdate lin cfg qp s).x i = xUpdate cfg.alpha (admmUpdate lin cfg qp s).xTilde i := rfl
    rw [hu, xUpdate_apply, Pi.zero_apply]
    rcases ha with ha | ha <;> rw [ha] <;> ring
  rcases solve_cases h with ⟨j, s, s', hr, hb, _, rfl⟩ | ⟨s, hr, rfl⟩
  · change s'.x = 0
    rw [(body_sameIter (Or.inr hb)).1, hx]
  · change s.x = 0
    obtain ⟨n, hn⟩ : ∃ n, cfg.maxIter.toNat = n + 1 := ⟨cfg.maxIter.toNat - 1, by omega⟩
    rw [hn] at hr
    cases hr with
    | cont _ hb => rw [(body_sameIter (Or.inl hb)).1, hx]

/-! ## Non-vacuity -/

open PolyMPC.Admm (lineLP reversedCfg)

/-- C239, boxADMM. With `rho = -0.1` the solver reports SOLVED within a hundredth of `x = 1`, where the cost is largest;
with `rho = 0.1` and otherwise the same settings within a hundredth of the minimiser `x = 0`. -/
theorem negative_rho_wrong :
    ((solve false exampleLin id reversedCfg lineLP (fun _ => 0) (fun _ => 0)
      (fresh reversedCfg (fun _ => 0) (fun _ => 0) 0)).map fun st =>
      (st.info.status, decide (|st.x 0 - 1| ≤ 1/100))) = some (.SOLVED, true) ∧
    ((solve false exampleLin id { reversedCfg with rho := 1/10 } lineLP (fun _ => 0) (fun _ => 0)
      (fresh reversedCfg (fun _ => 0) (fun _ => 0) 0)).map fun st =>
      (st.info.status, decide (|st.x 0| ≤ 1/100))) = some (.SOLVED, true) := by
  constructor <;> decide +kernel

/-- `alpha = 2`, the upper end of the documented range: zero comes back although `x = 0` is not allowed. -/
example : ((solve false exampleLin id { reversedCfg with rho := 1/10, maxIter := 30, alpha := 2 }
      { lineLP with xlb := fun _ => 1/2 } (fun _ => 1) (fun _ => 0)
      (fresh reversedCfg (fun _ => 0) (fun _ => 0) 0)).map fun st => (st.info.status, st.x 0)) =
    some (.MAX_ITER_EXCEEDED, 0) := by
  decide +kernel

end PolyMPC.BoxAdmm
