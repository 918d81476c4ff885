import Mathlib.Algebra.Order.Field.Basic
import Mathlib.Algebra.Order.AbsoluteValue.Basic
import Mathlib.Data.List.FinRange
import Mathlib.Data.Fintype.Basic

/-!
# Coefficient routines and the Legendre basis

Model of `src/polynomials/polynomial_math.hpp` and of `compute_basis` in `src/polynomials/legendre.hpp`.
A polynomial with `n` coefficients is a vector `Fin n → K`, entry `i` belongs to `x^i`.
`none` stands for undefined behaviour: reading an uninitialised variable or an index out of range.
-/

set_option linter.unusedSectionVars false

namespace PolyMPC.PolyMath

variable {K : Type*} [Field K] [LinearOrder K]

/-- Detection of the last coefficient which is not negligible, polynomial_math.hpp:55-62.
`nnz_p1`, `nnz_p2` are uninitialised until the first such coefficient, hence `none`. -/
def lastNonzero (eps : K) {n : ℕ} (p : Fin n → K) : Option (Fin n) :=
  (List.finRange n).foldl (fun acc i => if |p i| ≥ eps then some i else acc) none

/-- Inner loop of the product from counter `j` on, polynomial_math.hpp:66-72. The loop ends after at most `n` passes, so
`fuel = n` is enough. -/
def mulInner {n : ℕ} (p1 p2 : Fin n → K) (i nnz1 : Fin n) : ℕ → ℕ → (Fin n → K) → Option (Fin n → K)
  | 0, _, product => some product
  | fuel + 1, j, product =>
    if hj : j ≤ nnz1.val then
      if i.val + j = n then some product
      else if h : i.val + j < n then
        mulInner p1 p2 i nnz1 fuel (j + 1)
          (Function.update product ⟨i.val + j, h⟩ (p1 ⟨j, lt_of_le_of_lt hj nnz1.isLt⟩ * p2 i))
      else none
    else some product

/-- Outer loop of the product from counter `i` on, polynomial_math.hpp:64-73. -/
def mulOuter {n : ℕ} (p1 p2 : Fin n → K) (nnz1 nnz2 : Fin n) : ℕ → ℕ → (Fin n → K) → Option (Fin n → K)
  | 0, _, product => some product
  | fuel + 1, i, product =>
    if hi : i ≤ nnz2.val then
      (mulInner p1 p2 ⟨i, lt_of_le_of_lt hi nnz2.isLt⟩ nnz1 n 0 product).bind (mulOuter p1 p2 nnz1 nnz2 fuel (i + 1))
    else some product

/-- `poly_mul`, polynomial_math.hpp:43-76. -/
def polyMul (eps : K) {n : ℕ} (p1 p2 : Fin n → K) : Option (Fin n → K) :=
  (lastNonzero eps p1).bind fun nnz1 => (lastNonzero eps p2).bind fun nnz2 =>
    mulOuter p1 p2 nnz1 nnz2 n 0 0

/-- `poly_diff`, polynomial_math.hpp:81-93: entry `i < n - 1` is `(i+1) p[i+1]`, the last entry is zero. -/
def polyDiff {n : ℕ} (p : Fin n → K) : Fin n → K :=
  fun i => if h : i.val + 1 < n then ((i.val + 1 : ℕ) : K) * p ⟨i.val + 1, h⟩ else 0

/-- The coefficient vector of `p(x) = x`, legendre.hpp:250-251. -/
def xVec (N : ℕ) : Fin (N + 1) → K := fun i => if i.val = 1 then 1 else 0

/-- Columns of the basis before the recurrence: `L0 = 1`, `L1 = x`, other columns zero, legendre.hpp:241-245. -/
def basisStart (N : ℕ) : Fin (N + 1) → Fin (N + 1) → K :=
  fun c i => if c.val ≤ 1 ∧ i = c then 1 else 0

/-- The recurrence loop of `compute_basis`, legendre.hpp:252-260, from counter `n` on; `cols c` is column `c`. -/
def basisLoop (eps : K) (N : ℕ) : ℕ → ℕ → (Fin (N + 1) → Fin (N + 1) → K) → Option (Fin (N + 1) → Fin (N + 1) → K)
  | 0, _, cols => some cols
  | fuel + 1, n, cols =>
    if h : n < N then
      (polyMul eps (cols ⟨n, by omega⟩) (xVec N)).bind fun q =>
        basisLoop eps N fuel (n + 1) (Function.update cols ⟨n + 1, by omega⟩ fun i =>
          ((2 * n + 1 : ℕ) : K) / ((n + 1 : ℕ) : K) * q i - ((n : ℕ) : K) / ((n + 1 : ℕ) : K) * cols ⟨n - 1, by omega⟩ i)
    else some cols

/-- `Legendre::compute_basis`, legendre.hpp:237-263; order 0 writes `Ln(1,1)` out of range. -/
def computeBasis (eps : K) (N : ℕ) : Option (Fin (N + 1) → Fin (N + 1) → K) :=
  if N = 0 then none else basisLoop eps N N 1 (basisStart N)

end PolyMPC.PolyMath
