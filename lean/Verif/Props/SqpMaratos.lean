import Verif.Props.SqpLocal
import Mathlib.Analysis.Calculus.FDeriv.Pow
import Mathlib.Analysis.Calculus.FDeriv.Pi

/-!
# The line search near a solution (C175)

A problem with one constraint on a circle: its solution satisfies the hypotheses of C173 and C174 (non-vacuity), but arbitrarily close to it the line search of
`/repo/src/solvers/sqp_base.hpp:378-419` rejects the full step (Maratos effect).
-/

set_option linter.unusedSectionVars false
set_option linter.style.longLine false

namespace PolyMPC.Sqp
open Matrix PolyMPC.Spec PolyMPC.QuasiNewton

/-- Minimise `2 (x₁² + x₂² - 1) - x₁` subject to `x₁² + x₂² = 1`. -/
def circle : Problem ℝ 2 1 0 where
  cost x := 2 * (x 0 ^ 2 + x 1 ^ 2 - 1) - x 0
  eq x _ := x 0 ^ 2 + x 1 ^ 2 - 1
  ineq _ i := i.elim0
  costGrad x := ![4 * x 0 - 1, 4 * x 1]
  constr x _ := x 0 ^ 2 + x 1 ^ 2 - 1
  jac x := Matrix.of fun _ j => 2 * x j
  lagGrad x y := fun j => ![4 * x 0 - 1, 4 * x 1] j + 2 * x j * y (Sum.inl 0) + y (Sum.inr j)
  lagHess _ y := (4 + 2 * y (Sum.inl 0)) • 1

def circleBd : Bounds ℝ 2 0 where
  lbx _ := -10
  ubx _ := 10
  lbg i := i.elim0
  ubg i := i.elim0

def circleX : Fin 2 → ℝ := ![1, 0]
noncomputable def circleY : Dual ℝ 2 1 0 := Sum.elim (fun _ => -3 / 2) fun _ => 0

theorem circle_coherent : Coherent circle := fun _ => ⟨fun _ => rfl, fun i => i.elim0⟩

theorem circle_hess (x : Fin 2 → ℝ) : circle.lagHess x circleY = 1 := by
  show (4 + 2 * (-3 / 2 : ℝ)) • (1 : Matrix (Fin 2) (Fin 2) ℝ) = 1
  norm_num

theorem circle_kkt {x p : Fin 2 → ℝ} {H : Matrix (Fin 2) (Fin 2) ℝ} {ν : ℝ} (h1 : ∀ j, (H *ᵥ p) j + ![4 * x 0 - 1, 4 * x 1] j + 2 * x j * ν = 0)
    (h2 : 2 * x 0 * p 0 + 2 * x 1 * p 1 = -(x 0 ^ 2 + x 1 ^ 2 - 1)) (h3 : ∀ j, -10 ≤ x j + p j ∧ x j + p j ≤ 10) :
    (formQP circleBd x H (circle.costGrad x) (circle.jac x) (circle.constr x)).KKT p (Sum.elim (fun _ => ν) fun _ => 0) := by
  refine ⟨?_, ?_⟩
  · funext j
    show (H *ᵥ p) j + ![4 * x 0 - 1, 4 * x 1] j + ((circle.jac x)ᵀ *ᵥ fun _ => ν) j + 0 = 0
    have : ((circle.jac x)ᵀ *ᵥ fun _ => ν) j = 2 * x j * ν := by
      show ∑ _i : Fin 1, 2 * x j * ν = _
      simp
    rw [this, add_zero]
    exact h1 j
  · rintro (i | j)
    · have hi : i = Fin.castAdd 0 0 := by fin_cases i; rfl
      subst hi
      have e : (circle.jac x *ᵥ p) (Fin.castAdd 0 0) = -(x 0 ^ 2 + x 1 ^ 2 - 1) := by
        rw [← h2]
        show ∑ j : Fin 2, 2 * x j * p j = _
        rw [Fin.sum_univ_two]
      have l : (formQP circleBd x H (circle.costGrad x) (circle.jac x) (circle.constr x)).lower (Sum.inl (Fin.castAdd 0 0)) = -(x 0 ^ 2 + x 1 ^ 2 - 1) :=
        rfl
      have u : (formQP circleBd x H (circle.costGrad x) (circle.jac x) (circle.constr x)).upper (Sum.inl (Fin.castAdd 0 0)) = -(x 0 ^ 2 + x 1 ^ 2 - 1) :=
        rfl
      rw [l, u]
      have r : (formQP circleBd x H (circle.costGrad x) (circle.jac x) (circle.constr x)).rows p (Sum.inl (Fin.castAdd 0 0)) = -(x 0 ^ 2 + x 1 ^ 2 - 1) := e
      rw [r]
      exact ⟨⟨le_rfl, le_rfl⟩, fun _ => rfl, fun _ => rfl⟩
    · obtain ⟨a, b⟩ := h3 j
      refine ⟨⟨?_, ?_⟩, fun h => absurd h (lt_irrefl _), fun h => absurd h (lt_irrefl _)⟩
      · show -10 - x j ≤ p j; linarith
      · show p j ≤ 10 - x j; linarith

theorem circle_regular : RegularSolution circle circleBd circleX circleY where
  stationary := by
    rw [← zero_step_iff_stationary circle_coherent circleBd circleX 1 circleY]
    refine circle_kkt (fun j => ?_) ?_ fun j => ?_
    · fin_cases j <;> simp [circleX] <;> norm_num
    · simp [circleX]
    · fin_cases j <;> simp [circleX] <;> norm_num
  licq := by
    unfold LICQ
    have hact : ∀ i : Fin (1 + 0) ⊕ Fin 2, (nlpRows (circle.constr circleX) circleX i = nlpBound circleBd.lbg circleBd.lbx i ∨
        nlpRows (circle.constr circleX) circleX i = nlpBound circleBd.ubg circleBd.ubx i) → i = Sum.inl 0 := by
      rintro (i | j) h
      · fin_cases i; rfl
      · exfalso
        fin_cases j <;> simp [nlpRows, nlpBound, circleBd, circleX] at h <;> norm_num at h
    have : Subsingleton {i // nlpRows (circle.constr circleX) circleX i = nlpBound circleBd.lbg circleBd.lbx i ∨
        nlpRows (circle.constr circleX) circleX i = nlpBound circleBd.ubg circleBd.ubx i} :=
      ⟨fun a b => Subtype.ext ((hact a a.2).trans (hact b b.2).symm)⟩
    rw [linearIndependent_subsingleton_index_iff]
    rintro ⟨i, hi⟩ h0
    obtain rfl : i = Sum.inl 0 := hact i hi
    have : 2 * circleX 0 = 0 := congrFun h0 0
    simp [circleX] at this
  posdef v hv := by
    rw [circle_hess, one_mulVec]
    exact lt_of_le_of_ne (Finset.sum_nonneg fun i _ => mul_self_nonneg _) fun h => hv (dotProduct_self_eq_zero.mp h.symm)

theorem circle_smooth : Smooth circle circleX circleY := by
  refine ⟨1, one_pos, 2, fun x hx => ⟨?_, ?_, fun i j => ?_, fun y hy => ⟨?_, fun i j => ?_⟩⟩⟩
  · rw [hasFDerivAt_pi']
    intro i
    have h0 := (hasFDerivAt_apply (𝕜 := ℝ) (0 : Fin 2) x).pow 2
    have h1 := (hasFDerivAt_apply (𝕜 := ℝ) (1 : Fin 2) x).pow 2
    refine ((h0.add h1).sub_const 1).congr_fderiv ?_
    ext v
    simp [linMap, circle, mulVec, dotProduct, Fin.sum_univ_two]
  · rw [hasFDerivAt_pi']
    intro i
    have h0 := hasFDerivAt_apply (𝕜 := ℝ) i x
    rw [circle_hess]
    have he : (fun x => (circle.costGrad x + (circle.jac x)ᵀ *ᵥ QP.yA circleY) i) = fun x => x i + ![(-1 : ℝ), 0] i := by
      funext x
      fin_cases i <;> simp [circle, circleY, QP.yA, mulVec, dotProduct, transpose_apply] <;> ring
    rw [he]
    refine (h0.add_const _).congr_fderiv ?_
    ext v
    simp [linMap]
  · show |2 * x j - 2 * circleX j| ≤ _
    rw [← mul_sub, abs_mul, abs_two]
    exact mul_le_mul_of_nonneg_left (norm_le_pi_norm (x - circleX) j) zero_le_two
  · show ((4 + 2 * y (Sum.inl 0)) • (1 : Matrix (Fin 2) (Fin 2) ℝ))ᵀ = _
    rw [transpose_smul, transpose_one]; rfl
  · rw [circle_hess]
    show |((4 + 2 * y (Sum.inl 0)) • (1 : Matrix (Fin 2) (Fin 2) ℝ)) i j - _| ≤ _
    rw [Matrix.smul_apply, smul_eq_mul, one_apply]
    have h1 : |y (Sum.inl 0) - -3 / 2| ≤ ‖y - circleY‖ := norm_le_pi_norm (y - circleY) (Sum.inl 0)
    have h2 : ‖y - circleY‖ ≤ max ‖x - circleX‖ ‖y - circleY‖ := le_max_right _ _
    split
    · rw [show (4 + 2 * y (Sum.inl 0)) * 1 - 1 = 2 * (y (Sum.inl 0) - -3 / 2) by ring, abs_mul, abs_two]
      exact mul_le_mul_of_nonneg_left (h1.trans h2) zero_le_two
    · rw [mul_zero, sub_zero, abs_zero]
      positivity

/-! ## Non-vacuity of C173 and C174 -/

theorem id_keepsNear {n : ℕ} (W : Matrix (Fin n) (Fin n) ℝ) : KeepsNear id W := ⟨1, one_pos, fun _ _ => rfl⟩

variable {prec : Precond ℝ 2 (1 + 0)} {qps : QPSolver ℝ 2 (1 + 0)}

theorem circle_exactly {cfg : Settings ℝ} (hls : cfg.lineSearchMaxIter = 1) (eps : ℝ) (hl : LawfulPrecond prec) (hpd : ∀ m qp, ∃ r, prec.compute m qp = some r) (hex : ExactQP qps) :
    Exactly (defaultEnv eps cfg circle circleBd : Env ℝ 2 1 0 prec qps) circle circleBd where
  prob := rfl
  bd := rfl
  precond := hl
  computes := hpd
  qp := hex
  full := fullSteps_of_setting hls

/-- C173 applies to the circle: with `line_search_max_iter = 1` and the exact linearisation, every start near the solution is solved, to any tolerance. -/
example (hex : ExactQP qps) : ∃ δ > 0, ∃ M > 0, ∀ (eps : ℝ) (cfg : Settings ℝ), cfg.lineSearchMaxIter = 1 → ∀ N : ℕ, (N : ℤ) + 1 ≤ cfg.maxIter → M ≤ cfg.epsPrim * 2 ^ 2 ^ N →
    M ≤ cfg.epsDual * 2 ^ 2 ^ N → ∀ st : State ℝ 2 1 0 (identityPrecond ℝ 2 (1 + 0)) qps, err circleX circleY st ≤ δ →
      ∃ r, solveWith (defaultEnv eps cfg circle circleBd) (exactUpdate (defaultEnv eps cfg circle circleBd)) st = some r ∧ r.status = .SOLVED := by
  obtain ⟨δ, hδ, C, hC, M, hM, -, h⟩ := exact_quadratic circle_coherent circle_regular circle_smooth (id_keepsNear _)
  refine ⟨δ, hδ, M, hM, fun eps cfg hls N h1 h2 h3 st hst => ?_⟩
  obtain ⟨-, -, h4, -⟩ := h _ _ (defaultEnv eps cfg circle circleBd) (circle_exactly hls eps (identity_lawful _) (fun _ _ => ⟨_, rfl⟩) hex) rfl st hst
  obtain ⟨r, r1, r2, -⟩ := h4 N h1 h2 h3
  exact ⟨r, r1, r2⟩

/-- C174 applies to the circle with the Hessian of the first iteration kept in all others (`hessian_update` overridden by a function that does nothing). -/
example (hex : ExactQP qps) : ∃ δ > 0, ∃ M > 0, ∀ (eps : ℝ) (cfg : Settings ℝ), cfg.lineSearchMaxIter = 1 → ∀ N : ℕ, (N : ℤ) + 1 ≤ cfg.maxIter → M * (1 / 2) ^ N ≤ cfg.epsPrim →
    M * (1 / 2) ^ N ≤ cfg.epsDual → ∀ st : State ℝ 2 1 0 (identityPrecond ℝ 2 (1 + 0)) qps, err circleX circleY st ≤ δ →
      ∃ r, solve { (defaultEnv eps cfg circle circleBd : Env ℝ 2 1 0 (identityPrecond ℝ 2 (1 + 0)) qps) with hessUpdate := fun H _ _ => some H } st = some r ∧ r.status = .SOLVED := by
  obtain ⟨κ, hκ, h⟩ := inexact_linear circle_coherent circle_regular circle_smooth (id_keepsNear _) (θ := 1 / 2) (by norm_num) (by norm_num)
  obtain ⟨δ, hδ, M, hM, h⟩ := h κ hκ le_rfl
  refine ⟨δ, hδ, M, hM, fun eps cfg hls N h1 h2 h3 st hst => ?_⟩
  have hx := circle_exactly hls eps (identity_lawful _) (fun _ _ => ⟨_, rfl⟩) hex
  obtain ⟨-, h4, -⟩ := h _ _ { (defaultEnv eps cfg circle circleBd : Env ℝ 2 1 0 (identityPrecond ℝ 2 (1 + 0)) qps) with hessUpdate := fun H _ _ => some H }
    ⟨rfl, rfl, hx.precond, hx.computes, hx.qp, hx.full⟩ rfl (fun H _ _ hs hn => ⟨H, rfl, hs, hn⟩) st hst
  obtain ⟨r, r1, r2, -⟩ := h4 N h1 h2 h3
  exact ⟨r, r1, r2⟩

/-! ## C175 -/

theorem circle_feasible {z : Fin 2 → ℝ} (h : ∀ j, -10 ≤ z j ∧ z j ≤ 10) :
    l1Violation (circle.eq z) (circle.ineq z) circleBd.lbg circleBd.ubg z circleBd.lbx circleBd.ubx = |z 0 ^ 2 + z 1 ^ 2 - 1| := by
  have h1 : ∀ j, outside (circleBd.lbx j) (circleBd.ubx j) (z j) = 0 := fun j => by
    obtain ⟨a, b⟩ := h j
    show max (-10 - z j) 0 + max (z j - 10) 0 = 0
    rw [max_eq_right (by linarith), max_eq_right (by linarith), add_zero]
  unfold l1Violation
  rw [Finset.sum_eq_zero fun j _ => h1 j]
  simp [circle]

/-- On the circle the step of the QP with the exact Hessian at the optimal multiplier increases the cost and the violation; the line search does not accept it. -/
theorem circle_step_rejected {eps : ℝ} (heps : 0 ≤ eps) {cfg : Settings ℝ} (h0 : 0 ≤ cfg.tau) (h1 : cfg.tau < 1) (hη : 0 ≤ cfg.eta) (hls : 2 ≤ cfg.lineSearchMaxIter) {c s : ℝ}
    (hcs : c ^ 2 + s ^ 2 = 1) (hs : s ≠ 0) (lamK : Dual ℝ 2 1 0) (logged : ℝ) :
    (lineSearch eps cfg circle circleBd ![4 * c - 1, 4 * s] lamK ![c, s] ![s ^ 2, -(c * s)] logged).1 ≤ cfg.tau := by
  obtain ⟨k, -, hk, hacc, -⟩ := lineSearch_spec eps cfg circle circleBd ![4 * c - 1, 4 * s] lamK ![c, s] ![s ^ 2, -(c * s)] logged
  rw [hk]
  rcases Nat.eq_zero_or_pos k with rfl | hpos
  · exfalso
    have ha := hacc (by push_cast; omega)
    have hs2 : 0 < s ^ 2 := by positivity
    have hc1 : |c| ≤ 1 := abs_le_one_iff_mul_self_le_one.mpr (by nlinarith)
    have hs1 : |s| ≤ 1 := abs_le_one_iff_mul_self_le_one.mpr (by nlinarith)
    obtain ⟨c1, c2⟩ := abs_le.mp hc1
    obtain ⟨s1, s2⟩ := abs_le.mp hs1
    have hcs1 : |c * s| ≤ 1 := by rw [abs_mul]; exact mul_le_one₀ hc1 (abs_nonneg _) hs1
    obtain ⟨cs1, cs2⟩ := abs_le.mp hcs1
    have hμ := infNorm_nonneg lamK
    set μ := infNorm lamK with hμd
    rw [Armijo, merit, merit, circle_feasible, circle_feasible] at ha
    · have e1 : circle.cost (fun i => ![c, s] i + cfg.tau ^ 0 * ![s ^ 2, -(c * s)] i) = s ^ 2 - c := by
        simp only [circle, pow_zero, one_mul, cons_val_zero, cons_val_one]
        linear_combination (2 * s ^ 2 + 2) * hcs
      have e2 : circle.cost ![c, s] = -c := by
        simp only [circle, cons_val_zero, cons_val_one]
        linear_combination 2 * hcs
      have e3 : ![c, s] 0 ^ 2 + ![c, s] 1 ^ 2 - 1 = 0 := by
        simp only [cons_val_zero, cons_val_one]
        linear_combination hcs
      have e4 : ![4 * c - 1, 4 * s] ⬝ᵥ ![s ^ 2, -(c * s)] = -s ^ 2 := by
        simp only [dotProduct, Fin.sum_univ_two, cons_val_zero, cons_val_one]
        ring
      rw [e1, e2, e3, e4, abs_zero, add_zero, pow_zero, one_mul] at ha
      have h3 : cfg.eta * (-s ^ 2 - μ * eps) ≤ 0 := by
        have : 0 ≤ μ * eps := mul_nonneg hμ heps
        exact mul_nonpos_of_nonneg_of_nonpos hη (by linarith)
      rw [mul_add] at ha
      have h4 := mul_nonneg hμ (abs_nonneg ((![c, s] 0 + ![s ^ 2, -(c * s)] 0) ^ 2 + (![c, s] 1 + 1 * ![s ^ 2, -(c * s)] 1) ^ 2 - 1))
      linarith
    · intro j
      fin_cases j
      · show -10 ≤ c ∧ c ≤ 10
        constructor <;> linarith
      · show -10 ≤ s ∧ s ≤ 10
        constructor <;> linarith
    · intro j
      fin_cases j
      · show -10 ≤ c + cfg.tau ^ 0 * s ^ 2 ∧ c + cfg.tau ^ 0 * s ^ 2 ≤ 10
        rw [pow_zero]
        constructor <;> nlinarith
      · show -10 ≤ s + cfg.tau ^ 0 * -(c * s) ∧ s + cfg.tau ^ 0 * -(c * s) ≤ 10
        rw [pow_zero]
        constructor <;> linarith
  · calc cfg.tau ^ k ≤ cfg.tau ^ 1 := pow_le_pow_of_le_one h0 h1.le hpos
      _ = cfg.tau := pow_one _

/-- **C175.** With the default line search there are starts arbitrarily close to the regular solution of the circle, with the optimal multiplier and the exact Hessian, from which the next
error is at least `1 - tau` times the old one. -/
theorem line_search_shortens {eps : ℝ} (heps : 0 ≤ eps) {cfg : Settings ℝ} (h0 : 0 < cfg.tau) (h1 : cfg.tau < 1) (hη : 0 ≤ cfg.eta) (hls : 2 ≤ cfg.lineSearchMaxIter)
    (hl : LawfulPrecond prec) (hpd : ∀ m qp, ∃ r, prec.compute m qp = some r) (hex : ExactQP qps) (st0 : State ℝ 2 1 0 prec qps) {δ : ℝ} (hδ : 0 < δ) :
    ∃ st : State ℝ 2 1 0 prec qps, st = { st0 with x := st.x, lam := circleY } ∧ 0 < err circleX circleY st ∧ err circleX circleY st ≤ δ ∧
      ∃ s, firstPass (defaultEnv eps cfg circle circleBd) st = some s ∧ (1 - cfg.tau) * err circleX circleY st ≤ err circleX circleY s := by
  -- the point on the circle
  obtain ⟨c, s, hcs, hs, hsδ, hc0⟩ : ∃ c s : ℝ, c ^ 2 + s ^ 2 = 1 ∧ 0 < s ∧ s ≤ δ ∧ 0 ≤ c := by
    have hm : 0 < min δ 1 := lt_min hδ one_pos
    have hm1 : min δ 1 ^ 2 ≤ 1 := pow_le_one₀ hm.le (min_le_right _ _)
    refine ⟨Real.sqrt (1 - min δ 1 ^ 2), min δ 1, ?_, hm, min_le_left _ _, Real.sqrt_nonneg _⟩
    rw [Real.sq_sqrt (by linarith)]
    ring
  have hc1 : c ≤ 1 := by nlinarith
  have hs1 : s ≤ 1 := by nlinarith
  have h1c : 1 - c ≤ s := by nlinarith
  let st : State ℝ 2 1 0 prec qps := { st0 with x := ![c, s], lam := circleY }
  have herr : err circleX circleY st = s := by
    have e1 : ‖![c, s] - circleX‖ = s := by
      apply le_antisymm
      · rw [pi_norm_le_iff_of_nonneg hs.le]
        intro j
        fin_cases j
        · show |c - 1| ≤ s
          rw [abs_le]; constructor <;> linarith
        · show |s - 0| ≤ s
          rw [sub_zero, abs_of_pos hs]
      · have := norm_le_pi_norm (![c, s] - circleX) 1
        change |s - 0| ≤ _ at this
        rwa [sub_zero, abs_of_pos hs] at this
    show max ‖![c, s] - circleX‖ ‖circleY - circleY‖ = s
    rw [e1, sub_self, norm_zero, max_eq_left hs.le]
  refine ⟨st, rfl, by rw [herr]; exact hs, by rw [herr]; exact hsδ, ?_⟩
  set env : Env ℝ 2 1 0 prec qps := defaultEnv eps cfg circle circleBd
  set q := linearise env (start st) with hq
  have hqp : q.qp = formQP circleBd ![c, s] 1 (circle.costGrad ![c, s]) (circle.jac ![c, s]) (circle.constr ![c, s]) := by
    show formQP circleBd ![c, s] (circle.lagHess ![c, s] circleY) _ _ _ = _
    rw [circle_hess]
    rfl
  have hH : SPD q.qp.H := by
    rw [hqp]
    refine ⟨transpose_one, fun v hv => ?_⟩
    show 0 < v ⬝ᵥ (1 : Matrix (Fin 2) (Fin 2) ℝ) *ᵥ v
    rw [one_mulVec]
    exact lt_of_le_of_ne (Finset.sum_nonneg fun i _ => mul_self_nonneg _) fun h => hv (dotProduct_self_eq_zero.mp h.symm)
  have hk : q.qp.KKT ![s ^ 2, -(c * s)] (Sum.elim (fun _ => (c - 4) / 2) fun _ => 0) := by
    rw [hqp]
    refine circle_kkt (fun j => ?_) ?_ fun j => ?_
    · rw [one_mulVec]
      fin_cases j
      · show s ^ 2 + (4 * c - 1) + 2 * c * ((c - 4) / 2) = 0
        linear_combination hcs
      · show -(c * s) + 4 * s + 2 * s * ((c - 4) / 2) = 0
        ring
    · show 2 * c * s ^ 2 + 2 * s * -(c * s) = -(c ^ 2 + s ^ 2 - 1)
      linear_combination hcs
    · fin_cases j
      · show -10 ≤ c + s ^ 2 ∧ c + s ^ 2 ≤ 10
        constructor <;> nlinarith
      · show -10 ≤ s + -(c * s) ∧ s + -(c * s) ≤ 10
        constructor <;> nlinarith
  obtain ⟨w, hcm⟩ := hpd q.precMem q.qp
  obtain ⟨r, hr⟩ : ∃ r, qpStep env q = some r := ⟨_, by rw [qpStep, hcm]; rfl⟩
  obtain ⟨p, k1, -, k3, -⟩ := qpStep_exact hl hex hr hH ⟨_, _, hk⟩
  obtain rfl := kkt_primal_unique hH k1 hk
  have hα := circle_step_rejected heps h0.le h1 hη hls hcs hs.ne' r.lamK q.cost
  have hα0 := (lineSearch_range (eps := eps) h0 h1.le circle circleBd ![4 * c - 1, 4 * s] r.lamK ![c, s] ![s ^ 2, -(c * s)] q.cost).1
  refine ⟨measure env r, by rw [firstPass, ← hq, hr]; rfl, ?_⟩
  rw [herr]
  have hx1 : r.x 1 = s + (lineSearch eps cfg circle circleBd ![4 * c - 1, 4 * s] r.lamK ![c, s] ![s ^ 2, -(c * s)] q.cost).1 * -(c * s) := congrFun k3 1
  have h2 : |r.x 1 - 0| ≤ ‖r.x - circleX‖ := norm_le_pi_norm (r.x - circleX) 1
  have h3 : ‖r.x - circleX‖ ≤ err circleX circleY (measure env r) := le_max_left _ _
  refine le_trans ?_ (h2.trans h3)
  rw [sub_zero]
  refine le_trans ?_ (le_abs_self _)
  rw [hx1]
  set α := (lineSearch eps cfg circle circleBd ![4 * c - 1, 4 * s] r.lamK ![c, s] ![s ^ 2, -(c * s)] q.cost).1
  have h4 : α * c ≤ cfg.tau := (mul_le_of_le_one_right hα0.le hc1).trans hα
  have := mul_le_mul_of_nonneg_right h4 hs.le
  linarith

/-- **C175.** So there is no neighbourhood of the solution in which the errors converge quadratically, in contrast to C173. -/
theorem line_search_not_quadratic {eps : ℝ} (heps : 0 ≤ eps) {cfg : Settings ℝ} (h0 : 0 < cfg.tau) (h1 : cfg.tau < 1) (hη : 0 ≤ cfg.eta) (hls : 2 ≤ cfg.lineSearchMaxIter)
    (hl : LawfulPrecond prec) (hpd : ∀ m qp, ∃ r, prec.compute m qp = some r) (hex : ExactQP qps) (st0 : State ℝ 2 1 0 prec qps) :
    ¬ ∃ δ > 0, ∃ C : ℝ, ∀ st s : State ℝ 2 1 0 prec qps, err circleX circleY st ≤ δ → firstPass (defaultEnv eps cfg circle circleBd) st = some s →
      err circleX circleY s ≤ C * err circleX circleY st ^ 2 := by
  rintro ⟨δ, hδ, C, h⟩
  have hC : 0 < |C| + 1 := by positivity
  have hτ : 0 < 1 - cfg.tau := by linarith
  obtain ⟨st, -, e0, e1, s, hs, e2⟩ := line_search_shortens heps h0 h1 hη hls hl hpd hex st0 (lt_min hδ (div_pos hτ hC))
  have e3 := e1.trans (min_le_right _ _)
  rw [le_div_iff₀ hC] at e3
  have e4 := e2.trans (h st s (e1.trans (min_le_left _ _)) hs)
  have e5 : 1 - cfg.tau ≤ C * err circleX circleY st := by
    rw [pow_two, ← mul_assoc] at e4
    exact le_of_mul_le_mul_right e4 e0
  have := mul_le_mul_of_nonneg_right (le_abs_self C) e0.le
  nlinarith

/-- The default settings satisfy the hypotheses. -/
example : (0 : ℝ) < (Settings.default : Settings ℝ).tau ∧ (Settings.default : Settings ℝ).tau < 1 ∧ (0 : ℝ) ≤ (Settings.default : Settings ℝ).eta ∧ 2 ≤ (Settings.default : Settings ℝ).lineSearchMaxIter := by
  refine ⟨?_, ?_, ?_, ?_⟩ <;> norm_num [Settings.default]

end PolyMPC.Sqp
