import Verif.Spec.QP
import Mathlib.Data.Fin.Tuple.Basic

/-!
# Nonlinear programs

minimise `f(x)` subject to `c(x) = 0`, `lbg ≤ g(x) ≤ ubg`, `lbx ≤ x ≤ ubx`. Vocabulary only; no solver is mentioned.
-/

namespace PolyMPC.Spec
open Matrix

variable {K : Type*} [Field K] [LinearOrder K] [IsStrictOrderedRing K] {n me mi : ℕ}

/-- `x` violates every constraint by at most `tol`. -/
def ViolatedByAtMost (tol : K) (c : Fin me → K) (g lbg ubg : Fin mi → K) (x lbx ubx : Fin n → K) : Prop :=
  (∀ i, |c i| ≤ tol) ∧ (∀ i, lbg i - tol ≤ g i ∧ g i ≤ ubg i + tol) ∧ (∀ i, lbx i - tol ≤ x i ∧ x i ≤ ubx i + tol)

/-- `x` satisfies every constraint. -/
def NlpFeasible (c : Fin me → K) (g lbg ubg : Fin mi → K) (x lbx ubx : Fin n → K) : Prop :=
  (∀ i, c i = 0) ∧ (∀ i, lbg i ≤ g i ∧ g i ≤ ubg i) ∧ (∀ i, lbx i ≤ x i ∧ x i ≤ ubx i)

/-- Amount by which `z` lies outside `[lo, up]`. -/
def outside (lo up z : K) : K := max (lo - z) 0 + max (z - up) 0

/-- The sum of all constraint violations. -/
def l1Violation (c : Fin me → K) (g lbg ubg : Fin mi → K) (x lbx ubx : Fin n → K) : K :=
  ∑ i, |c i| + ∑ i, outside (lbg i) (ubg i) (g i) + ∑ i, outside (lbx i) (ubx i) (x i)

/-- First-order optimality of `x` with multipliers `lamE` (equalities), `lamI` (inequalities), `lamX` (bounds): the gradient
of the Lagrangian vanishes, `x` is feasible, and a multiplier is positive only at an active upper bound and negative only at
an active lower bound. -/
def NlpKKT (grad : Fin n → K) (JE : Matrix (Fin me) (Fin n) K) (JI : Matrix (Fin mi) (Fin n) K)
    (c : Fin me → K) (g lbg ubg : Fin mi → K) (x lbx ubx : Fin n → K)
    (lamE : Fin me → K) (lamI : Fin mi → K) (lamX : Fin n → K) : Prop :=
  grad + JEᵀ *ᵥ lamE + JIᵀ *ᵥ lamI + lamX = 0 ∧
  NlpFeasible c g lbg ubg x lbx ubx ∧
  (∀ i, (0 < lamI i → g i = ubg i) ∧ (lamI i < 0 → g i = lbg i)) ∧
  (∀ i, (0 < lamX i → x i = ubx i) ∧ (lamX i < 0 → x i = lbx i))

end PolyMPC.Spec
