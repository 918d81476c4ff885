import Verif.Spec.NLP
import Mathlib.Order.WithBot

/-!
# Constraints of a nonlinear program in which bounds may be absent

As `Verif.Spec.NLP`; a lower bound may be `-∞` (`⊥`) and an upper bound `+∞` (`⊤`).
-/

namespace PolyMPC.Spec

variable {K : Type*} [Field K] [LinearOrder K] [IsStrictOrderedRing K] {n me mi : ℕ}

/-- `x` violates every constraint by at most `tol`. -/
def ViolatedByAtMostInf (tol : K) (c : Fin me → K) (g : Fin mi → K) (lbg : Fin mi → WithBot K) (ubg : Fin mi → WithTop K) (x : Fin n → K)
    (lbx : Fin n → WithBot K) (ubx : Fin n → WithTop K) : Prop :=
  (∀ i, |c i| ≤ tol) ∧ (∀ i, lbg i ≤ ((g i + tol : K) : WithBot K) ∧ ((g i - tol : K) : WithTop K) ≤ ubg i) ∧
    (∀ i, lbx i ≤ ((x i + tol : K) : WithBot K) ∧ ((x i - tol : K) : WithTop K) ≤ ubx i)

end PolyMPC.Spec
