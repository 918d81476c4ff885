import Mathlib.Order.Defs.LinearOrder
import Mathlib.Order.Basic
import Mathlib.Algebra.Order.Field.Basic

/-!
# Specification vocabulary for the line-search filter (independent of the model)

A point is a pair (cost, constraint violation).
-/

namespace PolyMPC.Spec.Filter

/-- `p` is at least as good as `q` in both coordinates. -/
def Dominates {K : Type*} [LE K] (p q : K × K) : Prop := p.1 ≤ q.1 ∧ p.2 ≤ q.2

/-- `q` improves on `p` by the margin `β · (violation of p)` in cost or in violation. -/
def SufficientlyBetter {K : Type*} [Field K] [LinearOrder K] (β : K) (q p : K × K) : Prop :=
  q.1 < p.1 - β * p.2 ∨ q.2 < p.2 - β * p.2

/-- No point of the list is at least as good as a different one. -/
def MutuallyNonDominated {K : Type*} [LE K] (l : List (K × K)) : Prop :=
  l.Pairwise fun p q => ¬ Dominates p q ∧ ¬ Dominates q p

end PolyMPC.Spec.Filter
