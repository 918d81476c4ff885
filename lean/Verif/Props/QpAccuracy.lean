import Verif.Props.AdmmOptimality
import Verif.Props.BoxAdmm
import Verif.Props.SqpTheory
import Mathlib.Algebra.Order.Chebyshev

/-!
# Property C191: how far the returned point is from the minimiser of a strongly convex QP
-/

set_option linter.unusedSectionVars false

namespace PolyMPC.Spec.QP
open Matrix

variable {K : Type*} [Field K] [LinearOrder K] [IsStrictOrderedRing K] {N M : ℕ}

/-- The curvature of the objective is at least `m`. -/
def StronglyConvex (qp : QP K N M) (m : K) : Prop := 0 < m ∧ ∀ v : Fin N → K, m * ∑ i, v i ^ 2 ≤ v ⬝ᵥ qp.H *ᵥ v

/-- Distance from the optimal pair in terms of the residuals at `(x, y, z)`. -/
theorem distance_le {qp : QP K N M} {m : K} (hm : qp.StronglyConvex m) {x xs : Fin N → K} {y z ys : Fin M ⊕ Fin N → K}
    (hy : InNormalCone qp.lower qp.upper z y) (hk : qp.KKT xs ys) :
    m * ∑ i, (x i - xs i) ^ 2 ≤ infNorm (qp.lagrangianGradient x y) * oneNorm (x - xs)
      + infNorm (qp.rows x - z) * oneNorm (y - ys) := by
  have h1 := hm.2 (x - xs)
  have h3 : qp.lagrangianGradient x y ⬝ᵥ (x - xs) ≤ infNorm (qp.lagrangianGradient x y) * oneNorm (x - xs) :=
    (abs_le.mp (abs_sum_mul_le (qp.lagrangianGradient x y) (x - xs))).2
  have h4 : -(infNorm (qp.rows x - z) * oneNorm (y - ys)) ≤ (qp.rows x - z) ⬝ᵥ (y - ys) :=
    (abs_le.mp (abs_sum_mul_le (qp.rows x - z) (y - ys))).1
  have h5 : 0 ≤ (z - qp.rows xs) ⬝ᵥ (y - ys) :=
    Finset.sum_nonneg fun i _ => Sqp.cone_monotone hy hk.2 i
  have h6 : qp.lagrangianGradient xs ys ⬝ᵥ (x - xs) = 0 := by rw [hk.1, zero_dotProduct]
  rw [lagrangianGradient_eq, add_dotProduct, adjoint_dot, rows_sub] at h3 h6
  have e1 : (x - xs) ⬝ᵥ qp.H *ᵥ (x - xs) = (qp.H *ᵥ x) ⬝ᵥ (x - xs) - (qp.H *ᵥ xs) ⬝ᵥ (x - xs) := by
    rw [Matrix.mulVec_sub, dotProduct_comm, sub_dotProduct]
  rw [e1] at h1
  rw [add_dotProduct] at h3 h6
  rw [dotProduct_comm] at h4 h5
  simp only [Pi.sub_apply] at h1
  rw [← lagrangianGradient_eq] at h3
  simp only [sub_dotProduct, dotProduct_sub] at h1 h3 h4 h5 h6
  linarith

/-- The same, solved for the distance. -/
theorem distance_sq_le {qp : QP K N M} {m : K} (hm : qp.StronglyConvex m) {x xs : Fin N → K} {rd c : K}
    (hd : m * ∑ i, (x i - xs i) ^ 2 ≤ rd * oneNorm (x - xs) + c) :
    ∑ i, (x i - xs i) ^ 2 ≤ N * (rd / m) ^ 2 + 2 * c / m := by
  have hm0 := hm.1
  set S := ∑ i, (x i - xs i) ^ 2 with hS
  set T := oneNorm (x - xs) with hT
  have h1 : T ^ 2 ≤ N * S := by
    have := sq_sum_le_card_mul_sum_sq (s := (Finset.univ : Finset (Fin N))) (f := fun i => |x i - xs i|)
    simpa [hT, hS, oneNorm, sq_abs] using this
  have hS0 : 0 ≤ S := Finset.sum_nonneg fun i _ => sq_nonneg _
  have h2 : 2 * (m * S) ≤ N * rd ^ 2 / m + m * S + 2 * c := by
    rcases Nat.eq_zero_or_pos N with h0 | h0
    · have hT0 : T = 0 := by
        subst h0; simp [hT, oneNorm]
      rw [hT0] at hd
      have : S = 0 := by subst h0; simp [hS]
      rw [this] at hd ⊢
      have hN : (N : K) = 0 := by exact_mod_cast h0
      rw [hN]
      simp at hd ⊢; linarith
    · have hN : (0 : K) < N := by exact_mod_cast h0
      have h3 : 2 * (rd * T) ≤ N * rd ^ 2 / m + m * (T ^ 2 / N) := by
        have e : N * rd ^ 2 / m + m * (T ^ 2 / N) - 2 * (rd * T) = (N * rd - m * T) ^ 2 / (m * N) := by
          field_simp; ring
        have : 0 ≤ (N * rd - m * T) ^ 2 / (m * N) := div_nonneg (sq_nonneg _) (mul_pos hm0 hN).le
        linarith
      have h4 : T ^ 2 / N ≤ S := by rw [div_le_iff₀ hN]; linarith
      have h5 := mul_le_mul_of_nonneg_left h4 hm0.le
      linarith
  have h6 : m * S ≤ N * rd ^ 2 / m + 2 * c := by linarith
  have e : N * (rd / m) ^ 2 + 2 * c / m = (N * rd ^ 2 / m + 2 * c) / m := by field_simp
  rw [e, le_div_iff₀ hm0]; linarith

end PolyMPC.Spec.QP

namespace PolyMPC.Admm
open Matrix PolyMPC.Spec PolyMPC.QPBase

variable {K : Type*} [Field K] [LinearOrder K] [IsStrictOrderedRing K] {N M : ℕ}
variable {both : Bool} {lin : KktMat K N M → (KktIdx N M → K) → (KktIdx N M → K)} {sq : K → K} {cfg : Settings K}
  {qp : QP K N M} {xg : Fin N → K} {yg : Fin M ⊕ Fin N → K} {old : State K N M}

/-- C191 for ADMM. If the curvature of the objective is at least `m` and `solve` reports SOLVED, then the squared distance of the
returned point from the minimiser is at most `N (r_d / m)² + 2 r_p ‖y - y*‖₁ / m`, with the reported residuals `r_p`, `r_d`, the
returned multipliers `y` and any optimal multipliers `y*`. Nothing is assumed about the linear solver. -/
theorem solved_accurate {m : K} (hm : qp.StronglyConvex m) (hc : qp.Consistent) (hrho : 0 < cfg.rho) {st : State K N M}
    (h : solve both lin sq cfg qp xg yg old = some st) (hs : st.info.status = .SOLVED)
    {xs : Fin N → K} {ys : Fin M ⊕ Fin N → K} (hk : qp.KKT xs ys) :
    ∑ i, (st.x i - xs i) ^ 2 ≤ N * (st.info.resDual / m) ^ 2 + 2 * (st.info.resPrim * oneNorm (st.y - ys)) / m := by
  obtain ⟨_, _, h3, h4⟩ := solved_residuals h hs
  rw [h3, h4]
  exact QP.distance_sq_le hm (QP.distance_le hm (solved_dual_in_normal_cone hc hrho h hs) hk)

/-- The example QP has curvature 1 and the optimal pair `(1, 0)`; the run of `Props/Admm.lean` ends with SOLVED, so the theorem bounds
the error of its result. -/
example : exampleQP.StronglyConvex 1 ∧ exampleQP.Consistent ∧ exampleQP.KKT (fun _ => 1) (fun _ => 0) ∧
    ∃ st, solveCold false exampleLin id exampleCfg exampleQP (fresh exampleCfg (fun _ => 0) (fun _ => 0) 0) = some st ∧
      st.info.status = .SOLVED := by
  refine ⟨⟨one_pos, fun v => ?_⟩, exampleQP_consistent, ⟨?_, ?_⟩, ?_⟩
  · simp [exampleQP, dotProduct, Matrix.mulVec, pow_two]
  · funext i
    simp [QP.lagrangianGradient, exampleQP, Matrix.mulVec, dotProduct, QP.yA, QP.yBox]
  · intro i
    rcases i with i | i <;>
      norm_num [QP.lower, QP.upper, QP.rows, exampleQP, Matrix.mulVec, dotProduct]
  · have h : ((solveCold false exampleLin id exampleCfg exampleQP
        (fresh exampleCfg (fun _ => 0) (fun _ => 0) 0)).map fun st => st.info.status) = some .SOLVED := by decide +kernel
    exact Option.map_eq_some_iff.mp h

end PolyMPC.Admm

namespace PolyMPC.BoxAdmm
open Matrix PolyMPC.Spec PolyMPC.QPBase

variable {K : Type*} [Field K] [LinearOrder K] [IsStrictOrderedRing K] {N M : ℕ}
variable {both : Bool} {lin : KktMat K N M → (KktIdx N M → K) → (KktIdx N M → K)} {sq : K → K} {cfg : Settings K}
  {qp : QP K N M} {xg : Fin N → K} {yg : Fin M ⊕ Fin N → K} {old : State K N M}

/-- C191 for boxADMM. -/
theorem solved_accurate {m : K} (hm : qp.StronglyConvex m) (hc : qp.Consistent) (hrho : 0 < cfg.rho) {st : State K N M}
    (h : solve both lin sq cfg qp xg yg old = some st) (hs : st.info.status = .SOLVED)
    {xs : Fin N → K} {ys : Fin M ⊕ Fin N → K} (hk : qp.KKT xs ys) :
    ∑ i, (st.x i - xs i) ^ 2 ≤ N * (st.info.resDual / m) ^ 2 + 2 * (st.info.resPrim * oneNorm (st.y - ys)) / m := by
  obtain ⟨_, _, h3, h4⟩ := solved_residuals h hs
  rw [h3, h4]
  refine QP.distance_sq_le hm ((QP.distance_le hm (solved_kkt hc hrho h hs).1 hk).trans ?_)
  exact add_le_add_right (mul_le_mul_of_nonneg_right (rows_sub_aux_le qp st) (oneNorm_nonneg _)) _

end PolyMPC.BoxAdmm
