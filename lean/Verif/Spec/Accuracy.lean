import Verif.Spec.PsOde
import Mathlib.Analysis.Calculus.IteratedDeriv.Defs
import Mathlib.Analysis.SpecialFunctions.Exp

/-! # Accuracy of collocation solutions

Vocabulary; nothing here refers to the code. -/

namespace PolyMPC.Spec
open Set

/-- A bound of the interpolation at all nodes of a segment but its earliest: the sum of `∏ 2 / |c_j - c_k|` over the extrema `c_j` of the Chebyshev polynomial of degree `N`. It depends on `N` only. -/
noncomputable def growth (N : ℕ) : ℝ :=
  ∑ j : Fin N, ∏ k ∈ Finset.univ.erase j, 2 / |Real.cos (j * (Real.pi / N)) - Real.cos (k * (Real.pi / N))|

/-- `f(x, u)` is Lipschitz continuous in the first `n` entries of `x`, on `Ω`, for the largest of the differences. -/
def LipschitzIn (n : ℕ) (Ω : Set (ℕ → ℝ)) (f : (ℕ → ℝ) → (ℕ → ℝ) → ℕ → ℝ) (L : ℝ) : Prop :=
  ∀ x ∈ Ω, ∀ x' ∈ Ω, ∀ u B, (∀ j < n, |x j - x' j| ≤ B) → ∀ i < n, |f x u i - f x' u i| ≤ L * B

/-- `y` is a solution of `y' = r` on `[a, b]`, and the right-hand side along it is `N` times continuously differentiable with the `N`-th derivative at most `M`. -/
structure SmoothSolution (n N : ℕ) (y r : ℕ → ℝ → ℝ) (a b M : ℝ) : Prop where
  deriv : ∀ i < n, ∀ t ∈ Icc a b, HasDerivWithinAt (y i) (r i t) (Icc a b) t
  smooth : ∀ i < n, ContDiffOn ℝ N (r i) (Icc a b)
  bound : ∀ i < n, ∀ t ∈ Icc a b, |iteratedDerivWithin N (r i) (Icc a b) t| ≤ M

/-- Error of collocation with segments of length `h` on a horizon of length `T`, for an initial error `e0` and equations satisfied up to `ε`. It is of order `h ^ N` in the length of the segments. -/
noncomputable def errorBound (N : ℕ) (L M T h ε e0 : ℝ) : ℝ :=
  Real.exp (2 * growth N * L * T) * (e0 + T * (growth N * ε + (growth N + 1) * (M * h ^ N / (N - 1).factorial)))

end PolyMPC.Spec
