import Verif.Model.Rounding

/-!
# Damped BFGS update in floating-point arithmetic

Model of `BFGS_update` (`/repo/src/solvers/bfgs.hpp`) on a dense matrix with the operations of an arbitrary arithmetic
`Arith`. Negation and comparisons are exact. The literals `0.2` and `0.8` are stored in the scalar type (for `float` C++
would compute the two products with them in `double`). The quotients of outer products are not contracted with anything:
each entry is a product, divided, added to the old entry.
-/

namespace PolyMPC.BfgsR
open PolyMPC.Rounding

variable {n : ℕ}

/-- Matrix-vector product, bfgs.hpp:30: one dot product per row. -/
noncomputable def mulVec (ar : Arith) (B : Matrix (Fin n) (Fin n) ℝ) (s : Fin n → ℝ) : Fin n → ℝ :=
  fun i => ar.dot n (B i) s

/-- The choice of `r` and `sr`, bfgs.hpp:31-44; `none` for a division by zero. -/
noncomputable def dampedPair (ar : Arith) (Bs s y : Fin n → ℝ) : Option ((Fin n → ℝ) × ℝ) :=
  let sBs := ar.dot n s Bs
  let sy := ar.dot n s y
  if sy < ar.mul (ar.lit (2 / 10)) sBs then
    if ar.sub sBs sy = 0 then none
    else
      let theta := ar.div (ar.mul (ar.lit (8 / 10)) sBs) (ar.sub sBs sy)
      some (fun i => ar.lin2 theta (y i) (ar.sub 1 theta) (Bs i), ar.lin2 theta sy (ar.sub 1 theta) sBs)
  else some (y, sy)

/-- `BFGS_update`, bfgs.hpp:24-52. `eps` is `numeric_limits::epsilon()`; the result is the new value of `B`, `none` for a
division by zero. -/
noncomputable def bfgsUpdate (ar : Arith) (eps : ℝ) (B : Matrix (Fin n) (Fin n) ℝ) (s y : Fin n → ℝ) :
    Option (Matrix (Fin n) (Fin n) ℝ) :=
  let Bs := mulVec ar B s
  let sBs := ar.dot n s Bs
  (dampedPair ar Bs s y).bind fun (r, sr) =>
    if sr < eps then some B
    else if sBs = 0 ∨ sr = 0 then none
    else
      let B1 : Matrix (Fin n) (Fin n) ℝ := fun i j => ar.add (B i j) (ar.div (ar.mul (-Bs i) (Bs j)) sBs)
      some fun i j => ar.add (B1 i j) (ar.div (ar.mul (r i) (r j)) sr)

/-- A history of calls of `BFGS_update` on one matrix. -/
noncomputable def bfgsRun (ar : Arith) (eps : ℝ) (B : Matrix (Fin n) (Fin n) ℝ) :
    List ((Fin n → ℝ) × (Fin n → ℝ)) → Option (Matrix (Fin n) (Fin n) ℝ)
  | [] => some B
  | (s, y) :: rest => (bfgsUpdate ar eps B s y).bind fun B' => bfgsRun ar eps B' rest

end PolyMPC.BfgsR
