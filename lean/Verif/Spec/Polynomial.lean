import Mathlib.Algebra.Polynomial.Derivative
import Mathlib.Algebra.Polynomial.Eval.Degree
import Mathlib.Algebra.Polynomial.Roots
import Mathlib.Data.Real.Basic

/-!
# Polynomials given by coefficient vectors, and the Legendre polynomials (Rodrigues' formula)
-/

namespace PolyMPC.Spec
open Polynomial

variable {K : Type*}

/-- The polynomial `p 0 + p 1 X + ... + p (n-1) X^(n-1)`. -/
noncomputable def toPoly [Semiring K] {n : ℕ} (p : Fin n → K) : K[X] := ∑ i, C (p i) * X ^ i.val

/-- The Legendre polynomial of degree `n`, `1/(2^n n!) dⁿ/dxⁿ (x² - 1)ⁿ`. -/
noncomputable def legendre (K : Type*) [Field K] (n : ℕ) : K[X] :=
  C ((2 ^ n * (n.factorial : K))⁻¹) * derivative^[n] ((X ^ 2 - 1) ^ n)

/-- The Legendre-Gauss-Lobatto nodes of order `N` in ascending order: `-1`, the zeros of the derivative of the Legendre polynomial, `1`. -/
structure IsLGL (N : ℕ) (x : Fin (N + 1) → ℝ) : Prop where
  mono : StrictMono x
  first : x 0 = -1
  last : x (Fin.last N) = 1
  interior : ∀ i, 0 < i.val → i.val < N → (derivative (legendre ℝ N)).eval (x i) = 0

/-- What is assumed of a numerical root finder for polynomials with `n` coefficients: when the polynomial has degree `n - 1` and all its
roots are real, the finder returns them with their multiplicities, in any order. -/
def IsRootFinder {n : ℕ} (rf : (Fin n → ℝ) → Fin (n - 1) → ℝ) : Prop :=
  ∀ q : Fin n → ℝ, (toPoly q).natDegree = n - 1 → Multiset.card (toPoly q).roots = n - 1 →
    (List.ofFn (rf q) : Multiset ℝ) = (toPoly q).roots

end PolyMPC.Spec
