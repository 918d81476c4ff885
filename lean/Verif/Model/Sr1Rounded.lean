import Verif.Model.BfgsRounded

/-!
# SR1 update in floating-point arithmetic

Model of `SR1_update` (`/repo/src/solvers/sr1.hpp`) on a dense matrix with the operations of an arbitrary arithmetic
`Arith`. The absolute value and comparisons are exact. The product `B * s` is subtracted from `y` entry by entry.
-/

namespace PolyMPC.BfgsR
open PolyMPC.Rounding

variable {n : ℕ}

/-- The vector `v`, sr1.hpp:26-27. -/
noncomputable def sr1Vec (ar : Arith) (B : Matrix (Fin n) (Fin n) ℝ) (s y : Fin n → ℝ) : Fin n → ℝ :=
  fun i => ar.sub (y i) (mulVec ar B s i)

/-- `lpNorm<2>()`, sr1.hpp:32. -/
noncomputable def norm2 (ar : Arith) (v : Fin n → ℝ) : ℝ := ar.sqrt (ar.dot n v v)

/-- `SR1_update`, sr1.hpp:22-36; `none` for a division by zero. -/
noncomputable def sr1Update (ar : Arith) (B : Matrix (Fin n) (Fin n) ℝ) (s y : Fin n → ℝ) :
    Option (Matrix (Fin n) (Fin n) ℝ) :=
  let v := sr1Vec ar B s y
  let scaling := ar.dot n v s
  if |scaling| ≥ ar.mul (ar.mul (ar.lit (1 / 1000000)) (norm2 ar s)) (norm2 ar v) then
    if scaling = 0 then none
    else some fun i j => ar.add (B i j) (ar.div (ar.mul (v i) (v j)) scaling)
  else some B

/-- A history of calls of `SR1_update` on one matrix, sr1.hpp:22-36. -/
noncomputable def sr1Run (ar : Arith) (B : Matrix (Fin n) (Fin n) ℝ) :
    List ((Fin n → ℝ) × (Fin n → ℝ)) → Option (Matrix (Fin n) (Fin n) ℝ)
  | [] => some B
  | (s, y) :: rest => (sr1Update ar B s y).bind fun B' => sr1Run ar B' rest

end PolyMPC.BfgsR
