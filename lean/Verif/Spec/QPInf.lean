import Verif.Spec.QP
import Mathlib.Order.WithBot

/-!
# Quadratic programs with absent bounds

As `Verif.Spec.QP`, but a lower bound may be `-∞` (`⊥`) and an upper bound may be `+∞` (`⊤`). This file only fixes the mathematical
vocabulary; it does not refer to any solver.
-/

namespace PolyMPC.Spec
open Matrix

variable {K : Type*} [Field K] [LinearOrder K] [IsStrictOrderedRing K] {N M : ℕ}

/-- Data of a quadratic program in which every bound may be absent. -/
structure QPInf (K : Type*) (N M : ℕ) where
  H : Matrix (Fin N) (Fin N) K
  h : Fin N → K
  A : Matrix (Fin M) (Fin N) K
  Alb : Fin M → WithBot K
  Aub : Fin M → WithTop K
  xlb : Fin N → WithBot K
  xub : Fin N → WithTop K

namespace QPInf

/-- Constraint rows followed by the variables: `(A x, x)`. -/
def rows (qp : QPInf K N M) (x : Fin N → K) : Fin M ⊕ Fin N → K := Sum.elim (qp.A *ᵥ x) x

/-- Lower bounds of `rows`. -/
def lower (qp : QPInf K N M) : Fin M ⊕ Fin N → WithBot K := Sum.elim qp.Alb qp.xlb

/-- Upper bounds of `rows`. -/
def upper (qp : QPInf K N M) : Fin M ⊕ Fin N → WithTop K := Sum.elim qp.Aub qp.xub

/-- Some number lies between the bounds. -/
def Consistent (qp : QPInf K N M) : Prop := ∀ i, ∃ v : K, qp.lower i ≤ v ∧ v ≤ qp.upper i

/-- Feasible points. -/
def Feasible (qp : QPInf K N M) (x : Fin N → K) : Prop :=
  (∀ i, qp.Alb i ≤ ((qp.A *ᵥ x) i : K) ∧ ((qp.A *ᵥ x) i : K) ≤ qp.Aub i) ∧ (∀ i, qp.xlb i ≤ (x i : K) ∧ (x i : K) ≤ qp.xub i)

/-- Objective function. -/
def objective (qp : QPInf K N M) (x : Fin N → K) : K := 1 / 2 * (x ⬝ᵥ qp.H *ᵥ x) + qp.h ⬝ᵥ x

/-- `H` is symmetric positive semidefinite. -/
def Convex (qp : QPInf K N M) : Prop := qp.Hᵀ = qp.H ∧ ∀ x, 0 ≤ x ⬝ᵥ qp.H *ᵥ x

/-- Gradient of the Lagrangian `H x + h + Aᵀ y_A + y_box`. -/
def lagrangianGradient (qp : QPInf K N M) (x : Fin N → K) (y : Fin M ⊕ Fin N → K) : Fin N → K :=
  qp.H *ᵥ x + qp.h + qp.Aᵀ *ᵥ QP.yA y + QP.yBox y

/-- `y` is in the normal cone of the bounds at `z` (`z` itself within the bounds). In particular a multiplier of a row without upper bound
is not positive, and a multiplier of a row without lower bound is not negative. -/
def InNormalCone {ι : Type*} (lb : ι → WithBot K) (ub : ι → WithTop K) (z y : ι → K) : Prop :=
  ∀ i, (lb i ≤ (z i : K) ∧ (z i : K) ≤ ub i) ∧ (0 < y i → ub i = (z i : K)) ∧ (y i < 0 → lb i = (z i : K))

/-- First-order optimality (Karush-Kuhn-Tucker) conditions. -/
def KKT (qp : QPInf K N M) (x : Fin N → K) (y : Fin M ⊕ Fin N → K) : Prop :=
  qp.lagrangianGradient x y = 0 ∧ InNormalCone qp.lower qp.upper (qp.rows x) y

end QPInf
end PolyMPC.Spec
