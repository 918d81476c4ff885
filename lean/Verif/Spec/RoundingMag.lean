import Verif.Spec.QP
import Mathlib.Data.Real.Basic

/-!
# Magnitudes of the sums in the optimality conditions of a quadratic program

Rounding errors are relative to the sum of the magnitudes of the terms of a sum.
-/

namespace PolyMPC.Spec.QP

variable {N M : ℕ}

/-- Magnitude of the terms of `(A x, x)`. -/
def absRows (qp : QP ℝ N M) (x : Fin N → ℝ) : Fin M ⊕ Fin N → ℝ :=
  Sum.elim (fun i => ∑ j, |qp.A i j * x j|) (fun i => |x i|)

/-- Magnitude of the terms of the gradient of the Lagrangian. -/
def absGradient (qp : QP ℝ N M) (x : Fin N → ℝ) (y : Fin M ⊕ Fin N → ℝ) : Fin N → ℝ := fun i =>
  (∑ j, |qp.H i j * x j|) + |qp.h i| + (∑ j, |qp.A j i * y (Sum.inl j)|) + |y (Sum.inr i)|

/-- `y` is in the normal cone of the box `[lb, ub]` at `z` up to `δ`: entries larger than `δ` occur only at upper bounds,
entries smaller than `-δ` only at lower bounds. -/
def InNormalConeUpTo {ι : Type*} (δ lb ub z y : ι → ℝ) : Prop :=
  ∀ i, (lb i ≤ z i ∧ z i ≤ ub i) ∧ (δ i < y i → z i = ub i) ∧ (y i < -δ i → z i = lb i)

end PolyMPC.Spec.QP
