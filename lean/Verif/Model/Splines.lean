import Mathlib.Algebra.Polynomial.Eval.Degree
import Mathlib.Algebra.Order.Floor.Ring
import Mathlib.Algebra.BigOperators.Fin

/-!
# Splines

Model of `src/polynomials/splines.hpp`. External: `Eigen::poly_eval` is evaluation of the polynomial with the given coefficients;
`Eigen::roots_to_monicPolynomial` yields the coefficients of `∏ (x - r)` and reads `roots[0]`, so it is undefined without roots.
-/

namespace PolyMPC.Splines

/-- `EquidistantCubicSpline`, splines.hpp:51-98: one column of four coefficients per segment and the segment length. -/
structure Cubic (K : Type*) where
  cols : ℕ
  coeffs : Fin cols → Fin 4 → K
  length : K

section
variable {K : Type*} [Field K] [LinearOrder K] [FloorRing K]

/-- The segment index before clipping, splines.hpp:63-76. `floor_` returns `int`: a value outside its range, or a division by zero, is
undefined. -/
def Cubic.rawIndex (S : Cubic K) (x : K) : Option ℤ :=
  if S.length = 0 then none
  else if ⌊x / S.length⌋ < -2 ^ 31 ∨ 2 ^ 31 ≤ ⌊x / S.length⌋ then none
  else some ⌊x / S.length⌋

/-- The clipped index, splines.hpp:83: it may equal the number of columns. -/
def Cubic.clip (S : Cubic K) (i : ℤ) : ℕ := (max 0 (min i (S.cols : ℤ))).toNat

/-- `eval`, splines.hpp:73-87; an index equal to the number of columns reads out of range. -/
def Cubic.eval (S : Cubic K) (x : K) : Option K :=
  (S.rawIndex x).bind fun i =>
    if h : S.clip i < S.cols then
      some (S.coeffs ⟨S.clip i, h⟩ 0 + x * (S.coeffs ⟨S.clip i, h⟩ 1 + x * (S.coeffs ⟨S.clip i, h⟩ 2 + x * S.coeffs ⟨S.clip i, h⟩ 3)))
    else none

end

section
open Polynomial
variable {K : Type*} [Field K] [DecidableEq K]

/-- The other nodes, in order, splines.hpp:112-120. -/
def otherNodes {n : ℕ} (nodes : Fin n → K) (i : Fin n) : List K :=
  ((List.finRange n).filter fun j => decide (i ≠ j)).map nodes

/-- `Eigen::roots_to_monicPolynomial` into a vector of `n` entries. -/
noncomputable def monic (n : ℕ) (roots : List K) : Option (Fin n → K) :=
  if roots = [] then none else some fun k => ((roots.map fun r => (X - C r : K[X])).prod).coeff k.val

/-- `Eigen::poly_eval`. -/
def polyEval {n : ℕ} (c : Fin n → K) (t : K) : K := ∑ i, c i * t ^ i.val

/-- One row of `compute_lagrange_basis`, splines.hpp:112-122; division by zero is undefined. -/
noncomputable def basisRow {n : ℕ} (nodes : Fin n → K) (i : Fin n) : Option (Fin n → K) :=
  (monic n (otherNodes nodes i)).bind fun p =>
    if polyEval p (nodes i) = 0 then none else some fun k => p k / polyEval p (nodes i)

/-- `compute_lagrange_basis`, splines.hpp:105-124. -/
noncomputable def lagrangeBasis {n : ℕ} (nodes : Fin n → K) : Option (Fin n → Fin n → K) :=
  if h : ∀ i, (basisRow nodes i).isSome then some fun i => (basisRow nodes i).get (h i) else none

/-- `eval`, splines.hpp:128-138: every row of `values * basis` evaluated at the argument. -/
def lagrangeEval {m n : ℕ} (arg : K) (values : Fin m → Fin n → K) (basis : Fin n → Fin n → K) : Fin m → K :=
  fun r => polyEval (fun k => ∑ i, values r i * basis i k) arg

end

end PolyMPC.Splines
