import Verif.Spec.QP
import Mathlib.Data.Matrix.ColumnRowPartitioned
import Mathlib.Tactic.Linarith
import Mathlib.Tactic.Ring
import Mathlib.Tactic.LinearCombination
import Mathlib.Tactic.Positivity

/-! Facts about quadratic programs that do not involve a solver. -/

set_option linter.unusedSectionVars false

namespace PolyMPC.Spec.QP
open Matrix

variable {K : Type*} [Field K] [LinearOrder K] [IsStrictOrderedRing K] {N M : ℕ} (qp : QP K N M)

/-- `(A x, x) = [A; I] x`. -/
theorem rows_eq (x : Fin N → K) : qp.rows x = Matrix.fromRows qp.A (1 : Matrix (Fin N) (Fin N) K) *ᵥ x := by
  rw [Matrix.fromRows_mulVec, Matrix.one_mulVec]; rfl

theorem rows_sub (x w : Fin N → K) : qp.rows (x - w) = qp.rows x - qp.rows w := by
  rw [rows_eq, rows_eq, rows_eq, Matrix.mulVec_sub]

/-- `Aᵀ y_A + y_box = [A; I]ᵀ y`. -/
theorem adjoint_eq (y : Fin M ⊕ Fin N → K) :
    qp.Aᵀ *ᵥ yA y + yBox y = (Matrix.fromRows qp.A (1 : Matrix (Fin N) (Fin N) K))ᵀ *ᵥ y := by
  rw [Matrix.transpose_fromRows, Matrix.fromCols_mulVec, Matrix.transpose_one, Matrix.one_mulVec]
  rfl

theorem lagrangianGradient_eq (x : Fin N → K) (y : Fin M ⊕ Fin N → K) :
    qp.lagrangianGradient x y =
      qp.H *ᵥ x + qp.h + (Matrix.fromRows qp.A (1 : Matrix (Fin N) (Fin N) K))ᵀ *ᵥ y := by
  rw [← adjoint_eq, lagrangianGradient]
  simp only [add_assoc]

/-- `([A; I]ᵀ y) · d = y · (A d, d)`. -/
theorem adjoint_dot (y : Fin M ⊕ Fin N → K) (d : Fin N → K) :
    ((Matrix.fromRows qp.A (1 : Matrix (Fin N) (Fin N) K))ᵀ *ᵥ y) ⬝ᵥ d = y ⬝ᵥ qp.rows d := by
  rw [rows_eq, Matrix.mulVec_transpose, ← Matrix.dotProduct_mulVec]

theorem feasible_iff (w : Fin N → K) :
    qp.Feasible w ↔ ∀ i, qp.lower i ≤ qp.rows w i ∧ qp.rows w i ≤ qp.upper i := by
  constructor
  · rintro ⟨h1, h2⟩ (i | i)
    · exact h1 i
    · exact h2 i
  · intro h
    exact ⟨fun i => h (Sum.inl i), fun i => h (Sum.inr i)⟩

/-- Symmetry of the quadratic form. -/
theorem dot_symm {H : Matrix (Fin N) (Fin N) K} (hs : Hᵀ = H) (u v : Fin N → K) :
    u ⬝ᵥ H *ᵥ v = v ⬝ᵥ H *ᵥ u := by
  rw [Matrix.dotProduct_mulVec, ← Matrix.mulVec_transpose, hs, dotProduct_comm]

/-- First-order lower bound of a convex quadratic. -/
theorem objective_ge (hc : qp.Convex) (x w : Fin N → K) :
    qp.objective x + (qp.H *ᵥ x + qp.h) ⬝ᵥ (w - x) ≤ qp.objective w := by
  have h1 := hc.2 (w - x)
  have hs := dot_symm hc.1 w x
  simp only [Matrix.mulVec_sub, sub_dotProduct, dotProduct_sub] at h1
  unfold objective
  simp only [add_dotProduct, dotProduct_sub]
  have e1 : (qp.H *ᵥ x) ⬝ᵥ w = w ⬝ᵥ qp.H *ᵥ x := dotProduct_comm _ _
  have e2 : (qp.H *ᵥ x) ⬝ᵥ x = x ⬝ᵥ qp.H *ᵥ x := dotProduct_comm _ _
  rw [e1, e2]
  rw [← hs] at h1
  linarith [hs]

/-- Normal cones are monotone: if `y` is normal at `z` and `w` is within the bounds, `y · (w - z) ≤ 0`. -/
theorem normalCone_le {ι : Type*} [Fintype ι] {lb ub z y w : ι → K} (h : InNormalCone lb ub z y)
    (hw : ∀ i, lb i ≤ w i ∧ w i ≤ ub i) : y ⬝ᵥ (w - z) ≤ 0 := by
  unfold dotProduct
  refine Finset.sum_nonpos fun i _ => ?_
  obtain ⟨_, h1, h2⟩ := h i
  rcases lt_trichotomy (y i) 0 with hy | hy | hy
  · have := h2 hy
    have : 0 ≤ w i - z i := by rw [this]; linarith [(hw i).1]
    exact mul_nonpos_of_nonpos_of_nonneg hy.le this
  · simp [hy]
  · have := h1 hy
    have : w i - z i ≤ 0 := by rw [this]; linarith [(hw i).2]
    exact mul_nonpos_of_nonneg_of_nonpos hy.le this

/-- Approximate optimality from approximate KKT conditions. -/
theorem near_optimal (hc : qp.Convex) (x w : Fin N → K) (y z : Fin M ⊕ Fin N → K)
    (hy : InNormalCone qp.lower qp.upper z y) (hw : qp.Feasible w) :
    qp.objective x ≤ qp.objective w + infNorm (qp.lagrangianGradient x y) * oneNorm (x - w)
      + infNorm (qp.rows x - z) * oneNorm y := by
  have h1 := qp.objective_ge hc x w
  have h2 := normalCone_le hy ((qp.feasible_iff w).mp hw)
  have h3 := (abs_le.mp (abs_sum_mul_le (qp.lagrangianGradient x y) (x - w))).2
  have h4 := (abs_le.mp (abs_sum_mul_le (qp.rows x - z) y)).1
  have h3' : qp.lagrangianGradient x y ⬝ᵥ (x - w) ≤ infNorm (qp.lagrangianGradient x y) * oneNorm (x - w) := h3
  have h4' : -(infNorm (qp.rows x - z) * oneNorm y) ≤ (qp.rows x - z) ⬝ᵥ y := h4
  rw [lagrangianGradient_eq, add_dotProduct, adjoint_dot, rows_sub] at h3'
  rw [lagrangianGradient_eq]
  rw [dotProduct_comm] at h4'
  simp only [dotProduct_sub] at h1 h2 h3' h4'
  linarith

end PolyMPC.Spec.QP
