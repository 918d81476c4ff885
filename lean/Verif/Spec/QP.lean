import Verif.Spec.Norm
import Mathlib.Data.Matrix.Mul

/-!
# Quadratic programs

minimise `½ xᵀ H x + hᵀ x` subject to `Alb ≤ A x ≤ Aub` and `xlb ≤ x ≤ xub`.

This file only fixes the mathematical vocabulary; it does not refer to any solver.
-/

namespace PolyMPC.Spec
open Matrix

variable {K : Type*} [Field K] [LinearOrder K] [IsStrictOrderedRing K] {N M : ℕ}

/-- Data of a quadratic program with `N` variables and `M` two-sided constraints. -/
structure QP (K : Type*) (N M : ℕ) where
  H : Matrix (Fin N) (Fin N) K
  h : Fin N → K
  A : Matrix (Fin M) (Fin N) K
  Alb : Fin M → K
  Aub : Fin M → K
  xlb : Fin N → K
  xub : Fin N → K

namespace QP

/-- Constraint rows followed by the variables: `(A x, x)`. -/
def rows (qp : QP K N M) (x : Fin N → K) : Fin M ⊕ Fin N → K := Sum.elim (qp.A *ᵥ x) x

/-- Lower bounds of `rows`. -/
def lower (qp : QP K N M) : Fin M ⊕ Fin N → K := Sum.elim qp.Alb qp.xlb

/-- Upper bounds of `rows`. -/
def upper (qp : QP K N M) : Fin M ⊕ Fin N → K := Sum.elim qp.Aub qp.xub

/-- Every lower bound is at most the corresponding upper bound. -/
def Consistent (qp : QP K N M) : Prop := ∀ i, qp.lower i ≤ qp.upper i

/-- Feasible points. -/
def Feasible (qp : QP K N M) (x : Fin N → K) : Prop :=
  (∀ i, qp.Alb i ≤ (qp.A *ᵥ x) i ∧ (qp.A *ᵥ x) i ≤ qp.Aub i) ∧ (∀ i, qp.xlb i ≤ x i ∧ x i ≤ qp.xub i)

/-- Objective function. -/
def objective (qp : QP K N M) (x : Fin N → K) : K := 1 / 2 * (x ⬝ᵥ qp.H *ᵥ x) + qp.h ⬝ᵥ x

/-- `H` is symmetric positive semidefinite. -/
def Convex (qp : QP K N M) : Prop := qp.Hᵀ = qp.H ∧ ∀ x, 0 ≤ x ⬝ᵥ qp.H *ᵥ x

/-- Multipliers of the general constraints. -/
def yA (y : Fin M ⊕ Fin N → K) : Fin M → K := fun i => y (Sum.inl i)

/-- Multipliers of the variable bounds. -/
def yBox (y : Fin M ⊕ Fin N → K) : Fin N → K := fun i => y (Sum.inr i)

/-- Gradient of the Lagrangian `H x + h + Aᵀ y_A + y_box`. -/
def lagrangianGradient (qp : QP K N M) (x : Fin N → K) (y : Fin M ⊕ Fin N → K) : Fin N → K :=
  qp.H *ᵥ x + qp.h + qp.Aᵀ *ᵥ yA y + yBox y

/-- `y` is in the normal cone of the interval box `[lb, ub]` at `z` (`z` itself within the box). -/
def InNormalCone {ι : Type*} (lb ub z y : ι → K) : Prop :=
  ∀ i, (lb i ≤ z i ∧ z i ≤ ub i) ∧ (0 < y i → z i = ub i) ∧ (y i < 0 → z i = lb i)

/-- First-order optimality (Karush-Kuhn-Tucker) conditions. -/
def KKT (qp : QP K N M) (x : Fin N → K) (y : Fin M ⊕ Fin N → K) : Prop :=
  qp.lagrangianGradient x y = 0 ∧ InNormalCone qp.lower qp.upper (qp.rows x) y

end QP
end PolyMPC.Spec
