import Mathlib.Algebra.BigOperators.Group.Finset.Basic
import Mathlib.Algebra.Order.Group.Unbundled.Basic

/-!
# What Ipopt makes of the arrays (Ipopt's triplet format and its form of a nonlinear program)
-/

namespace PolyMPC.Spec

/-- The matrix given by `nnz` triplets: values at the same position add up, positions that do not occur are zero. -/
def triplets {K : Type} [AddCommMonoid K] (nnz : ℕ) (irow jcol : ℕ → ℕ) (value : ℕ → K) (i j : ℕ) : K :=
  ∑ t ∈ Finset.range nnz, if irow t = i ∧ jcol t = j then value t else 0

/-- The symmetric matrix given by `nnz` triplets of one triangle: an off-diagonal triplet stands for two entries. -/
def symTriplets {K : Type} [AddCommMonoid K] (nnz : ℕ) (irow jcol : ℕ → ℕ) (value : ℕ → K) (i j : ℕ) : K :=
  triplets nnz irow jcol value i j + if i = j then 0 else triplets nnz irow jcol value j i

/-- The positions are those of an `m` by `n` matrix, counted from zero (`C_STYLE`). -/
def InRange (m n nnz : ℕ) (irow jcol : ℕ → ℕ) : Prop := ∀ t < nnz, irow t < m ∧ jcol t < n

/-- The constraints as Ipopt sees them: `x_l ≤ x ≤ x_u` and `g_l ≤ g(x) ≤ g_u`. -/
def IpoptFeasible {R : Type} [LE R] (n m : ℕ) (xl xu gl gu x g : ℕ → R) : Prop :=
  (∀ i < n, xl i ≤ x i ∧ x i ≤ xu i) ∧ ∀ i < m, gl i ≤ g i ∧ g i ≤ gu i

end PolyMPC.Spec
