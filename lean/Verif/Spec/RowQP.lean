import Verif.Spec.QP

/-!
# Quadratic programs with rows only

minimise `½ xᵀ P x + qᵀ x` subject to `l ≤ A x ≤ u`, the form OSQP accepts, and its optimality conditions with OSQP's sign of the
multipliers: `P x + q + Aᵀ y = 0`, `y` in the normal cone of `[l, u]` at `A x`.
-/

namespace PolyMPC.Spec
open Matrix

variable {K : Type*} [Field K] [LinearOrder K] [IsStrictOrderedRing K] {n m : ℕ}

/-- Data of a quadratic program with `n` variables and `m` rows. -/
structure RowQP (K : Type*) (n m : ℕ) where
  P : Matrix (Fin n) (Fin n) K
  q : Fin n → K
  A : Matrix (Fin m) (Fin n) K
  l : Fin m → K
  u : Fin m → K

namespace RowQP

/-- Feasible points. -/
def Feasible (p : RowQP K n m) (x : Fin n → K) : Prop := ∀ i, p.l i ≤ (p.A *ᵥ x) i ∧ (p.A *ᵥ x) i ≤ p.u i

/-- Objective function. -/
def objective (p : RowQP K n m) (x : Fin n → K) : K := 1 / 2 * (x ⬝ᵥ p.P *ᵥ x) + p.q ⬝ᵥ x

/-- Residual of stationarity. -/
def stationarity (p : RowQP K n m) (x : Fin n → K) (y : Fin m → K) : Fin n → K := p.P *ᵥ x + p.q + p.Aᵀ *ᵥ y

/-- Optimality conditions. -/
def KKT (p : RowQP K n m) (x : Fin n → K) (y : Fin m → K) : Prop :=
  p.stationarity x y = 0 ∧ QP.InNormalCone p.l p.u (p.A *ᵥ x) y

end RowQP
end PolyMPC.Spec
