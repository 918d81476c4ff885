import Verif.Props.Admm
import Verif.Lemmas.QP
import Mathlib.LinearAlgebra.Matrix.ToLinearEquiv

/-!
# Properties C04, C06, C07: what ADMM's result means for the quadratic program
-/

set_option linter.unusedSectionVars false

namespace PolyMPC.Admm
open Matrix PolyMPC.Spec PolyMPC.QPBase

variable {K : Type*} [Field K] [LinearOrder K] [IsStrictOrderedRing K] {N M : ℕ}
variable {both : Bool} {lin : KktMat K N M → (KktIdx N M → K) → (KktIdx N M → K)} {sq : K → K} {cfg : Settings K}
  {qp : QP K N M} {xg : Fin N → K} {yg : Fin M ⊕ Fin N → K} {old : State K N M}

/-! ## C04 -/

/-- C04. For a convex QP, when `solve` reports SOLVED, the objective at the returned point exceeds the objective at any
feasible point by at most (reported dual residual)·‖x - w‖₁ + (reported primal residual)·‖y‖₁. -/
theorem solved_near_optimal (hconv : qp.Convex) (hc : qp.Consistent) (hrho : 0 < cfg.rho) {st : State K N M}
    (h : solve both lin sq cfg qp xg yg old = some st) (hs : st.info.status = .SOLVED)
    (w : Fin N → K) (hw : qp.Feasible w) :
    qp.objective st.x ≤ qp.objective w + st.info.resDual * oneNorm (st.x - w) + st.info.resPrim * oneNorm st.y := by
  obtain ⟨_, _, h3, h4⟩ := solved_residuals h hs
  rw [h3, h4]
  exact qp.near_optimal hconv st.x w st.y st.z (solved_dual_in_normal_cone hc hrho h hs) hw

/-- C04, with the tolerances of the settings instead of the reported residuals. -/
theorem solved_near_optimal_tol (hconv : qp.Convex) (hc : qp.Consistent) (hrho : 0 < cfg.rho) {st : State K N M}
    (h : solve both lin sq cfg qp xg yg old = some st) (hs : st.info.status = .SOLVED)
    (w : Fin N → K) (hw : qp.Feasible w) :
    qp.objective st.x ≤ qp.objective w
      + (cfg.epsAbs + cfg.epsRel * dualScale qp st.x st.y) * oneNorm (st.x - w)
      + (cfg.epsAbs + cfg.epsRel * primalScale qp st.x st.z) * oneNorm st.y := by
  obtain ⟨h1, h2, h3, h4⟩ := solved_residuals h hs
  have := solved_near_optimal hconv hc hrho h hs w hw
  rw [h3, h4] at this
  have a1 := mul_le_mul_of_nonneg_right h2 (oneNorm_nonneg (st.x - w))
  have a2 := mul_le_mul_of_nonneg_right h1 (oneNorm_nonneg st.y)
  linarith

/-! ## C07 -/

theorem readLower_eq {A T : KktMat K N M} (hT : Tᵀ = T) (h : ∀ i j, kktPos j ≤ kktPos i → A i j = T i j) :
    readLower A = T := by
  ext i j
  unfold readLower
  split_ifs with hij
  · exact h i j hij
  · rw [h j i (by omega)]; exact congrFun (congrFun hT i) j

/-- The assembled matrix as seen by the decomposition, for symmetric `H`. -/
theorem effective_constructKkt (hs : qp.Hᵀ = qp.H) (sigma : K) (d : Fin M ⊕ Fin N → K) (o : KktMat K N M) :
    effective both (constructKkt both sigma qp.H (constructA qp.A) d o) =
      Matrix.fromBlocks (qp.H + Matrix.diagonal fun _ => sigma) (constructA qp.A)ᵀ (constructA qp.A)
        (-(Matrix.diagonal d)) := by
  cases both with
  | true => simp [effective, constructKkt]
  | false =>
    simp only [effective, Bool.false_eq_true, if_false]
    apply readLower_eq
    · rw [Matrix.fromBlocks_transpose]
      simp [hs]
    · intro i j hij
      rcases i with i | i <;> rcases j with j | j
      · rfl
      · exfalso
        rcases j with j | j <;> simp only [kktPos] at hij <;> omega
      · rfl
      · simp [constructKkt]

/-- Block form of the linear system. -/
theorem kkt_system_blocks {ι : Type*} [Fintype ι] [DecidableEq ι] (P : Matrix (Fin N) (Fin N) K)
    (A : Matrix ι (Fin N) K) (d : ι → K) (s b : Fin N ⊕ ι → K) :
    Matrix.fromBlocks P Aᵀ A (-(Matrix.diagonal d)) *ᵥ s = b ↔
      (P *ᵥ (fun i => s (Sum.inl i)) + Aᵀ *ᵥ (fun i => s (Sum.inr i)) = fun i => b (Sum.inl i)) ∧
      (∀ i, (A *ᵥ (fun i => s (Sum.inl i))) i - d i * s (Sum.inr i) = b (Sum.inr i)) := by
  rw [Matrix.fromBlocks_mulVec]
  constructor
  · intro h
    constructor
    · funext i
      have := congrFun h (Sum.inl i)
      simpa [Function.comp_def] using this
    · intro i
      have := congrFun h (Sum.inr i)
      simp only [Sum.elim_inr, Pi.add_apply, Matrix.neg_mulVec, Pi.neg_apply, Matrix.mulVec_diagonal] at this
      rw [← this]
      simp only [Function.comp_def]
      ring
  · rintro ⟨h1, h2⟩
    funext i
    rcases i with i | i
    · simpa [Function.comp_def] using congrFun h1 i
    · simp only [Sum.elim_inr, Pi.add_apply, Matrix.neg_mulVec, Pi.neg_apply, Matrix.mulVec_diagonal]
      rw [← h2 i]
      simp only [Function.comp_def]
      ring

/-- The quadratic form of the reduced system is positive definite. -/
theorem kkt_kernel {ι : Type*} [Fintype ι] [DecidableEq ι] {H : Matrix (Fin N) (Fin N) K} (hH : ∀ x, 0 ≤ x ⬝ᵥ H *ᵥ x) {sigma : K} (hsig : 0 < sigma)
    (A : Matrix ι (Fin N) K) {d : ι → K} (hd : ∀ i, 0 < d i) (s : Fin N ⊕ ι → K)
    (h : Matrix.fromBlocks (H + Matrix.diagonal fun _ => sigma) Aᵀ A (-(Matrix.diagonal d)) *ᵥ s = 0) : s = 0 := by
  obtain ⟨h1, h2⟩ := (kkt_system_blocks _ A d s 0).mp h
  set x : Fin N → K := fun i => s (Sum.inl i) with hx
  set v : ι → K := fun i => s (Sum.inr i) with hv
  have hAx : A *ᵥ x = fun i => d i * v i := by
    funext i; have := h2 i; simp only [Pi.zero_apply] at this; linarith
  have h1' : x ⬝ᵥ ((H + Matrix.diagonal fun _ => sigma) *ᵥ x + Aᵀ *ᵥ v) = 0 := by
    rw [h1]; simp [dotProduct]
  rw [dotProduct_add, Matrix.add_mulVec, dotProduct_add] at h1'
  have e1 : x ⬝ᵥ (Matrix.diagonal fun _ => sigma) *ᵥ x = sigma * (x ⬝ᵥ x) := by
    simp only [dotProduct, Matrix.mulVec_diagonal, Finset.mul_sum]
    exact Finset.sum_congr rfl fun i _ => by ring
  have e2 : x ⬝ᵥ Aᵀ *ᵥ v = ∑ i, d i * v i * v i := by
    rw [Matrix.mulVec_transpose, dotProduct_comm, ← Matrix.dotProduct_mulVec, hAx]
    simp only [dotProduct]
    exact Finset.sum_congr rfl fun i _ => by ring
  rw [e1, e2] at h1'
  have p1 := hH x
  have p2 : 0 ≤ x ⬝ᵥ x := Finset.sum_nonneg fun i _ => mul_self_nonneg _
  have p3 : ∀ i ∈ Finset.univ, 0 ≤ d i * v i * v i := fun i _ => by
    rw [mul_assoc]; exact mul_nonneg (hd i).le (mul_self_nonneg _)
  have p3' := Finset.sum_nonneg p3
  have p4 := mul_nonneg hsig.le p2
  have z1 : sigma * (x ⬝ᵥ x) = 0 := by linarith
  have z2 : ∑ i, d i * v i * v i = 0 := by linarith
  have hx0 : x ⬝ᵥ x = 0 := (mul_eq_zero.mp z1).resolve_left hsig.ne'
  have hv0 := (Finset.sum_eq_zero_iff_of_nonneg p3).mp z2
  funext i
  rcases i with i | i
  · have := (Finset.sum_eq_zero_iff_of_nonneg (fun i _ => mul_self_nonneg (x i))).mp hx0 i (Finset.mem_univ _)
    simpa [hx] using this
  · have := hv0 i (Finset.mem_univ _)
    rw [mul_assoc, mul_eq_zero] at this
    have := this.resolve_left (hd i).ne'
    simpa [hv] using this

/-- C07. For positive semidefinite `H`, `sigma > 0` and positive step sizes, the linear system ADMM solves is
nonsingular, whichever triangle the decomposition reads. -/
theorem kkt_nonsingular (hconv : qp.Convex) {sigma : K} (hsig : 0 < sigma) {rhoInv : Fin M ⊕ Fin N → K}
    (hr : ∀ i, 0 < rhoInv i) (o : KktMat K N M) :
    (effective both (constructKkt both sigma qp.H (constructA qp.A) rhoInv o)).det ≠ 0 := by
  rw [effective_constructKkt hconv.1]
  intro hdet
  obtain ⟨v, hv, hv0⟩ := Matrix.exists_mulVec_eq_zero_iff.mpr hdet
  exact hv (kkt_kernel hconv.2 hsig _ hr v hv0)

/-- C07 along a run: at every pass the factorised matrix is nonsingular, so the linear system has exactly one
solution. -/
theorem run_kkt_nonsingular (hconv : qp.Convex) (hsig : 0 < cfg.sigma) (hrho : 0 < cfg.rho) {k : ℕ}
    {st : State K N M} (h : Running both lin sq cfg qp xg yg old k st) :
    (effective both st.fact).det ≠ 0 ∧ ∀ b, ∃! s, effective both st.fact *ᵥ s = b := by
  have hi := stepInv_running h
  have hpos := hi.rhoVec_pos (rho_pos_running hrho h)
  have hdet : (effective both st.fact).det ≠ 0 := by
    rw [hi.fact, hi.kkt]
    refine kkt_nonsingular (both := both) hconv hsig (fun i => ?_) old.kkt
    rw [hi.ri]; exact inv_pos.mpr (hpos i)
  refine ⟨hdet, fun b => ?_⟩
  have hu : IsUnit (effective both st.fact).det := isUnit_iff_ne_zero.mpr hdet
  refine ⟨(effective both st.fact)⁻¹ *ᵥ b, ?_, ?_⟩
  · simp only [Matrix.mulVec_mulVec, Matrix.mul_nonsing_inv _ hu, Matrix.one_mulVec]
  · intro s hs
    rw [← hs, Matrix.mulVec_mulVec, Matrix.nonsing_inv_mul _ hu, Matrix.one_mulVec]

/-! ## C06 -/

/-- The linear solve of one pass, in terms of the problem data (exact solver). -/
theorem exact_step (hex : ExactSolver both lin) (hconv : qp.Convex) (hsig : 0 < cfg.sigma) {st : State K N M}
    (hfact : ∃ o, st.fact = constructKkt both cfg.sigma qp.H (constructA qp.A) st.rhoInvVec o)
    (hpos : ∀ i, 0 < st.rhoInvVec i) :
    ∃ xt nu, (∀ xt' nu', (qp.H *ᵥ xt' + cfg.sigma • xt' + (constructA qp.A)ᵀ *ᵥ nu' = cfg.sigma • st.x - qp.h ∧
        (∀ i, (constructA qp.A *ᵥ xt') i - st.rhoInvVec i * nu' i = st.z i - st.rhoInvVec i * st.y i)) ↔
          (xt' = xt ∧ nu' = nu)) ∧
      (admmUpdate lin cfg qp st).xTilde = xt ∧
      (admmUpdate lin cfg qp st).zTilde = fun i => st.z i + st.rhoInvVec i * (nu i - st.y i) := by
  obtain ⟨o, ho⟩ := hfact
  set b := kktRhs cfg.sigma qp.h st with hb
  have hdet := kkt_nonsingular (both := both) hconv hsig hpos o
  have hsol := hex st.fact b (by rw [ho]; exact hdet)
  rw [ho, effective_constructKkt hconv.1, ← ho, kkt_system_blocks] at hsol
  refine ⟨fun i => lin st.fact b (Sum.inl i), fun i => lin st.fact b (Sum.inr i), ?_, rfl, rfl⟩
  have hP : ∀ x : Fin N → K, (qp.H + Matrix.diagonal fun _ => cfg.sigma) *ᵥ x = qp.H *ᵥ x + cfg.sigma • x := by
    intro x
    rw [Matrix.add_mulVec]
    congr 1
    funext i
    simp [Matrix.mulVec_diagonal]
  have hbl : (fun i => b (Sum.inl i)) = cfg.sigma • st.x - qp.h := by
    funext i; simp [hb, kktRhs]
  have hbr : ∀ i, b (Sum.inr i) = st.z i - st.rhoInvVec i * st.y i := by
    intro i; simp [hb, kktRhs]
  rw [hP, hbl] at hsol
  simp only [hbr] at hsol
  intro xt' nu'
  constructor
  · intro h'
    have hz : (Sum.elim xt' nu' : KktIdx N M → K) = lin st.fact b := by
      have hsys : ∀ s : KktIdx N M → K, (s = Sum.elim xt' nu' ∨ s = lin st.fact b) →
          Matrix.fromBlocks (qp.H + Matrix.diagonal fun _ => cfg.sigma) (constructA qp.A)ᵀ (constructA qp.A)
            (-(Matrix.diagonal st.rhoInvVec)) *ᵥ s = b := by
        intro s hs
        rw [kkt_system_blocks, hP, hbl]
        simp only [hbr]
        rcases hs with rfl | rfl
        · exact h'
        · exact hsol
      have hd := kkt_kernel hconv.2 hsig (constructA qp.A) hpos (Sum.elim xt' nu' - lin st.fact b) (by
        rw [Matrix.mulVec_sub, hsys _ (Or.inl rfl), hsys _ (Or.inr rfl), sub_self])
      exact sub_eq_zero.mp hd
    rw [← hz]
    exact ⟨rfl, rfl⟩
  · rintro ⟨rfl, rfl⟩
    exact hsol

/-- C06. With an exact linear solver, positive `sigma`, positive step sizes and nonzero relaxation, one ADMM pass leaves
`(x, y, z)` unchanged if and only if `z = (A x, x)` and `(x, y)` satisfies the KKT conditions of the QP. -/
theorem stationary_iff_kkt (hex : ExactSolver both lin) (hconv : qp.Convex) (hc : qp.Consistent)
    (hsig : 0 < cfg.sigma) (halpha : cfg.alpha ≠ 0) {st : State K N M}
    (hfact : ∃ o, st.fact = constructKkt both cfg.sigma qp.H (constructA qp.A) st.rhoInvVec o)
    (hpos : ∀ i, 0 < st.rhoVec i) (hinv : ∀ i, st.rhoInvVec i = (st.rhoVec i)⁻¹) :
    ((admmUpdate lin cfg qp st).x = st.x ∧ (admmUpdate lin cfg qp st).y = st.y ∧
      (admmUpdate lin cfg qp st).z = st.z) ↔ (st.z = qp.rows st.x ∧ qp.KKT st.x st.y) := by
  have hposi : ∀ i, 0 < st.rhoInvVec i := fun i => by rw [hinv]; exact inv_pos.mpr (hpos i)
  have hone : ∀ i, st.rhoVec i * st.rhoInvVec i = 1 := fun i => by
    rw [hinv]; exact mul_inv_cancel₀ (hpos i).ne'
  obtain ⟨xt, nu, huniq, hxt, hzt⟩ := exact_step hex hconv hsig hfact hposi
  have hx : (admmUpdate lin cfg qp st).x = fun i => cfg.alpha * xt i + (1 - cfg.alpha) * st.x i := by
    rw [← hxt]; rfl
  have hproj : ∀ i, projArg lin cfg qp st i =
      cfg.alpha * (st.z i + st.rhoInvVec i * (nu i - st.y i)) + ((1 - cfg.alpha) * st.z i + st.rhoInvVec i * st.y i) := by
    intro i; rw [projArg, hzt]
  constructor
  · rintro ⟨h1, h2, h3⟩
    have hxt' : xt = st.x := by
      funext i
      have := congrFun h1 i
      rw [hx] at this
      simp only at this
      have : cfg.alpha * (xt i - st.x i) = 0 := by linear_combination this
      exact sub_eq_zero.mp ((mul_eq_zero.mp this).resolve_left halpha)
    have hnu : nu = st.y := by
      funext i
      have hy := congrFun h2 i
      rw [admmUpdate_y _ _ (hone i), congrFun h3 i, hproj i] at hy
      have : cfg.alpha * (nu i - st.y i) = 0 := by
        linear_combination hy - (cfg.alpha * (nu i - st.y i) + st.y i) * hone i
      exact sub_eq_zero.mp ((mul_eq_zero.mp this).resolve_left halpha)
    obtain ⟨e1, e2⟩ := (huniq xt nu).mpr ⟨rfl, rfl⟩
    rw [hxt', hnu] at e1 e2
    have hz : st.z = qp.rows st.x := by
      funext i
      have := e2 i
      rw [qp.rows_eq]
      change st.z i = (constructA qp.A *ᵥ st.x) i
      linarith
    refine ⟨hz, ?_, ?_⟩
    · rw [QP.lagrangianGradient_eq]
      change qp.H *ᵥ st.x + qp.h + (constructA qp.A)ᵀ *ᵥ st.y = 0
      funext i
      have := congrFun e1 i
      simp only [Pi.add_apply, Pi.sub_apply, Pi.smul_apply, smul_eq_mul, Pi.zero_apply] at this ⊢
      linarith
    · rw [← hz]
      intro i
      have hzi := congrFun h3 i
      rw [admmUpdate_z, hproj i, hnu] at hzi
      have ha : cfg.alpha * (st.z i + st.rhoInvVec i * (st.y i - st.y i)) +
          ((1 - cfg.alpha) * st.z i + st.rhoInvVec i * st.y i) = st.z i + st.rhoInvVec i * st.y i := by ring
      rw [ha] at hzi
      refine ⟨?_, ?_, ?_⟩
      · rw [← hzi]; exact clip_mem (hc i)
      · intro hy
        have hp := mul_pos (hposi i) hy
        have := clip_of_lt (v := st.z i + st.rhoInvVec i * st.y i) (l := qp.lower i) (u := qp.upper i)
          (by rw [hzi]; linarith)
        rw [← this, hzi]
      · intro hy
        have hp := mul_neg_of_pos_of_neg (hposi i) hy
        have := clip_of_gt (v := st.z i + st.rhoInvVec i * st.y i) (hc i) (by rw [hzi]; linarith)
        rw [← this, hzi]
  · rintro ⟨hz, hstat, hcone⟩
    have hsolve : st.x = xt ∧ st.y = nu := by
      refine (huniq st.x st.y).mp ⟨?_, ?_⟩
      · rw [QP.lagrangianGradient_eq] at hstat
        change qp.H *ᵥ st.x + qp.h + (constructA qp.A)ᵀ *ᵥ st.y = 0 at hstat
        funext i
        have := congrFun hstat i
        simp only [Pi.add_apply, Pi.sub_apply, Pi.smul_apply, smul_eq_mul, Pi.zero_apply] at this ⊢
        linarith
      · intro i
        rw [hz, qp.rows_eq]
        rfl
    obtain ⟨hxt', hnu⟩ := hsolve
    have hp : ∀ i, projArg lin cfg qp st i = st.z i + st.rhoInvVec i * st.y i := by
      intro i; rw [hproj, ← hnu]; ring
    have hz' : (admmUpdate lin cfg qp st).z = st.z := by
      funext i
      rw [admmUpdate_z, hp]
      obtain ⟨⟨b1, b2⟩, c1, c2⟩ := hcone i
      rw [← hz] at b1 b2 c1 c2
      rcases lt_trichotomy (st.y i) 0 with hy | hy | hy
      · have := mul_neg_of_pos_of_neg (hposi i) hy
        rw [c2 hy, max_eq_right (by linarith), min_eq_left (hc i)]
      · rw [hy, mul_zero, add_zero, max_eq_left b1, min_eq_left b2]
      · have := mul_pos (hposi i) hy
        rw [c1 hy, max_eq_left (by linarith [hc i]), min_eq_right (by linarith)]
    refine ⟨?_, ?_, hz'⟩
    · rw [hx, ← hxt']; funext i; ring
    · funext i
      rw [admmUpdate_y _ _ (hone i), hz', hp]
      linear_combination (st.y i) * hone i

/-! ## Non-vacuity -/

theorem exampleQP_convex : exampleQP.Convex := by
  refine ⟨rfl, fun x => ?_⟩
  simp only [exampleQP, dotProduct, Matrix.mulVec, Finset.univ_unique, Finset.sum_singleton]
  nlinarith [mul_self_nonneg (x default)]

/-- The hypotheses of C04, C06, C07 are met by the example QP; its KKT point is `x = 1`, `y = 0`. -/
example : exampleQP.Convex ∧ exampleQP.Consistent ∧ 0 < exampleCfg.rho ∧ 0 < exampleCfg.sigma ∧ exampleCfg.alpha ≠ 0 ∧
    exampleQP.KKT (fun _ => 1) (fun _ => 0) ∧ exampleQP.Feasible (fun _ => 1) := by
  refine ⟨exampleQP_convex, exampleQP_consistent, by norm_num [exampleCfg], by norm_num [exampleCfg],
    by norm_num [exampleCfg], ⟨?_, ?_⟩, ?_, ?_⟩
  · funext i
    simp [QP.lagrangianGradient, exampleQP, Matrix.mulVec, dotProduct, QP.yA, QP.yBox]
  · intro i
    rcases i with i | i <;>
      norm_num [QP.lower, QP.upper, QP.rows, exampleQP, Matrix.mulVec, dotProduct]
  · intro i
    norm_num [exampleQP, Matrix.mulVec, dotProduct]
  · intro i
    norm_num [exampleQP]

/-- The exact-solver assumption is satisfiable for all dimensions: the matrix inverse is an exact solver. -/
example (both : Bool) : ExactSolver (K := K) (N := N) (M := M) both (fun A b => (effective both A)⁻¹ *ᵥ b) := by
  intro A b hdet
  rw [Matrix.mulVec_mulVec, Matrix.mul_nonsing_inv _ (isUnit_iff_ne_zero.mpr hdet), Matrix.one_mulVec]

end PolyMPC.Admm
