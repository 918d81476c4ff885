import Mathlib.Algebra.Order.Field.Basic
import Mathlib.Data.Matrix.Mul

/-!
# Quasi-Newton updates

Models of `BFGS_update` (`/repo/src/solvers/bfgs.hpp`) and `SR1_update` (`/repo/src/solvers/sr1.hpp`) for dense matrices.

Division by zero, which in floating point yields infinities or NaN, is the outcome `none`. Decimal literals are exact
rationals.
-/

namespace PolyMPC.QuasiNewton
open Matrix

variable {K : Type*} [Field K] [LinearOrder K] {n : ℕ}

/-- Division (bfgs.hpp:37) with `none` for a zero divisor. -/
def divide (a b : K) : Option K := if b = 0 then none else some (a / b)

/-- The outer product `a * b.transpose()`, bfgs.hpp:50-51 and sr1.hpp:33. -/
def outer (a b : Fin n → K) : Matrix (Fin n) (Fin n) K := Matrix.of fun i j => a i * b j

/-- The choice of `r` and `sr`, bfgs.hpp:34-44. -/
def dampedPair (Bs s y : Fin n → K) : Option ((Fin n → K) × K) :=
  let sBs := s ⬝ᵥ Bs
  let sy := s ⬝ᵥ y
  if sy < 2 / 10 * sBs then
    (divide (8 / 10 * sBs) (sBs - sy)).map fun theta =>
      (fun i => theta * y i + (1 - theta) * Bs i, theta * sy + (1 - theta) * sBs)
  else some (y, sy)

/-- `BFGS_update`, bfgs.hpp:24-52. `eps` is `numeric_limits::epsilon()`; the result is the new value of `B`. -/
def bfgsUpdate (eps : K) (B : Matrix (Fin n) (Fin n) K) (s y : Fin n → K) : Option (Matrix (Fin n) (Fin n) K) :=
  let Bs := B *ᵥ s
  let sBs := s ⬝ᵥ Bs
  (dampedPair Bs s y).bind fun (r, sr) =>
    if sr < eps then some B
    else if sBs = 0 ∨ sr = 0 then none
    else
      let B1 := B + Matrix.of fun i j => -(outer Bs Bs i j) / sBs
      some (B1 + Matrix.of fun i j => outer r r i j / sr)

/-- A history of calls of `BFGS_update` (bfgs.hpp:24-52) on one matrix, as in a run of an SQP solver. -/
def bfgsRun (eps : K) (B : Matrix (Fin n) (Fin n) K) : List ((Fin n → K) × (Fin n → K)) →
    Option (Matrix (Fin n) (Fin n) K)
  | [] => some B
  | (s, y) :: rest => (bfgsUpdate eps B s y).bind fun B' => bfgsRun eps B' rest

/-- `lpNorm<2>()`, sr1.hpp:32, with `sq` the square root. -/
def norm2 (sq : K → K) (v : Fin n → K) : K := sq (v ⬝ᵥ v)

/-- `SR1_update`, sr1.hpp:22-36. -/
def sr1Update (sq : K → K) (B : Matrix (Fin n) (Fin n) K) (s y : Fin n → K) : Option (Matrix (Fin n) (Fin n) K) :=
  let v := y - B *ᵥ s
  let scaling := v ⬝ᵥ s
  if |scaling| ≥ 1 / 1000000 * norm2 sq s * norm2 sq v then
    if scaling = 0 then none
    else some (B + Matrix.of fun i j => outer v v i j / scaling)
  else some B

end PolyMPC.QuasiNewton
