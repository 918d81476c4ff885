import Verif.Model.Ruiz
import Verif.Model.Rounding

/-!
# `RuizEquilibration` with rounding errors, solvers/qp_preconditioners.hpp

The members `compute`, `unscale` and `scale` with every operation of the scalar type as in `Model/Rounding.lean`, in the order of the
source. Norms (`lpNorm<Infinity>`, `maxxCoeff`) and the guard against small values only compare and copy numbers, so they are the ones of
`Model/Ruiz.lean`. Left out: `update`, and that `scale` is `const` but for the data.
-/

namespace PolyMPC.RuizRounded
open Matrix PolyMPC.Spec PolyMPC.Rounding
open PolyMPC.Ruiz (State Variant init maxCoeff guardZero)

variable {N M : ℕ} (ar : Arith)

/-- `mean()`, qp_preconditioners.hpp:205 and 289: a sum in any order, divided by the number of entries. -/
noncomputable def mean (v : Fin N → ℝ) : ℝ := ar.div (ar.dot N v fun _ => 1) N

/-- `v.cwiseSqrt().cwiseInverse()`, qp_preconditioners.hpp:189-190 and 276-277. -/
noncomputable def invSqrt {n : ℕ} (v : Fin n → ℝ) : Fin n → ℝ := fun k => ar.div 1 (ar.sqrt (v k))

/-- An entry of the scaled `A`: `m_E.asDiagonal() * A * m_D.asDiagonal()` (dense, line 194) or `m_E.asDiagonal() * (A * m_D.asDiagonal())`
(sparse, line 284). -/
noncomputable def entryA (dense : Bool) (e a d : ℝ) : ℝ := if dense then ar.mul (ar.mul e a) d else ar.mul e (ar.mul a d)

/-- Scaling of `H`, `A` and `h` within a sweep, lines 193-195 and 283-285. -/
noncomputable def scaleMatrices (dense : Bool) (mD : Fin N → ℝ) (mE : Fin M → ℝ) (qp : QP ℝ N M) : QP ℝ N M :=
  { qp with
    H := Matrix.of fun i j => ar.mul (ar.mul (mD i) (qp.H i j)) (mD j)
    A := Matrix.of fun i j => entryA ar dense (mE i) (qp.A i j) (mD j)
    h := fun i => ar.mul (qp.h i) (mD i) }

/-- Multiplication of the cost by `gamma_scaling`, lines 206-207 and 290-291. -/
noncomputable def scaleCost (gamma : ℝ) (qp : QP ℝ N M) : QP ℝ N M :=
  { qp with H := Matrix.of fun i j => ar.mul (qp.H i j) gamma, h := fun i => ar.mul (qp.h i) gamma }

/-- One pass of the `while` loop of `compute`, lines 173-210 (dense) and 257-294 (sparse). `none` is the division by zero in line 205 or 289. -/
noncomputable def sweep [NeZero N] [NeZero M] (var : Variant ℝ N M) (dense : Bool) (P : State ℝ N M) (qp : QP ℝ N M) :
    Option (State ℝ N M × QP ℝ N M × ℝ) :=
  let nE := var.rowA qp.A
  let nD := fun j => max (var.colH qp.H j) (var.colA qp.A j)
  let scalingNorm := max (maxCoeff nD) (maxCoeff nE)
  let mD := invSqrt ar (guardZero var.approxZero nD)
  let mE := invSqrt ar (guardZero var.approxZero nE)
  let qp1 := scaleMatrices ar dense mD mE qp
  let nH := var.colH qp1.H
  let divisor := max (mean ar nH) (var.hNorm (infNorm qp1.h))
  if divisor = 0 then none
  else
    let gamma := ar.div 1 divisor
    some ({ D := fun i => ar.mul (P.D i) (mD i), E := fun i => ar.mul (P.E i) (mE i), c := ar.mul P.c gamma, mD := nH, mE := mE },
      scaleCost ar gamma qp1, scalingNorm)

/-- The `while` loop of `compute`, lines 171-211 and 255-295; `fuel` is `max_iter - iter`. -/
noncomputable def loop [NeZero N] [NeZero M] (var : Variant ℝ N M) (dense : Bool) :
    ℕ → State ℝ N M → QP ℝ N M → ℝ → Option (State ℝ N M × QP ℝ N M)
  | 0, P, qp, _ => some (P, qp)
  | fuel + 1, P, qp, norm =>
    if ar.sub 1 norm ≥ ar.lit (1 / 1000) then
      match sweep ar var dense P qp with
      | none => none
      | some (P', qp', norm') => loop var dense fuel P' qp' norm'
    else some (P, qp)

/-- Scaling of the bounds, lines 213-219, 300-306, 321-327 and 343-349. -/
noncomputable def scaleBounds (P : State ℝ N M) (qp : QP ℝ N M) : QP ℝ N M :=
  { qp with
    Aub := fun i => ar.mul (qp.Aub i) (P.E i)
    Alb := fun i => ar.mul (qp.Alb i) (P.E i)
    xlb := fun i => ar.mul (qp.xlb i) (ar.div 1 (P.D i))
    xub := fun i => ar.mul (qp.xub i) (ar.div 1 (P.D i)) }

/-- `compute`, dense: lines 153-220, sparse: lines 237-307. -/
noncomputable def compute [NeZero N] [NeZero M] (var : Variant ℝ N M) (dense : Bool) (_P : State ℝ N M) (qp : QP ℝ N M) :
    Option (State ℝ N M × QP ℝ N M) :=
  (loop ar var dense 4 init qp (ar.mul 10 (ar.lit (1 / 1000)))).map fun r => (r.1, scaleBounds ar r.1 r.2)

/-- `unscale` of the QP data, lines 368-406. -/
noncomputable def unscale (P : State ℝ N M) (qp : QP ℝ N M) : QP ℝ N M :=
  { H := Matrix.of fun i j => ar.mul (ar.mul (ar.mul (ar.div 1 P.c) (ar.div 1 (P.D i))) (qp.H i j)) (ar.div 1 (P.D j))
    A := Matrix.of fun i j => ar.mul (ar.mul (ar.div 1 (P.E i)) (qp.A i j)) (ar.div 1 (P.D j))
    h := fun i => ar.mul (ar.div 1 P.c) (ar.mul (qp.h i) (ar.div 1 (P.D i)))
    Aub := fun i => ar.mul (qp.Aub i) (ar.div 1 (P.E i))
    Alb := fun i => ar.mul (qp.Alb i) (ar.div 1 (P.E i))
    xlb := fun i => ar.mul (qp.xlb i) (P.D i)
    xub := fun i => ar.mul (qp.xub i) (P.D i) }

/-- `unscale` of a primal-dual pair, lines 360-365. -/
noncomputable def unscalePair (P : State ℝ N M) (xy : (Fin N → ℝ) × (Fin M ⊕ Fin N → ℝ)) : (Fin N → ℝ) × (Fin M ⊕ Fin N → ℝ) :=
  (fun i => ar.mul (xy.1 i) (P.D i),
   Sum.elim (fun i => ar.mul (ar.div 1 P.c) (ar.mul (xy.2 (Sum.inl i)) (P.E i)))
     (fun i => ar.mul (ar.div 1 P.c) (ar.mul (xy.2 (Sum.inr i)) (ar.div 1 (P.D i)))))

end PolyMPC.RuizRounded
