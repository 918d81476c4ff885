import Verif.Spec.QP

/-!
# QP preconditioners

Model of `/repo/src/solvers/qp_preconditioners.hpp`: `IdentityPreconditioner` and `RuizEquilibration`, dense and sparse.

* A QP is the record `Spec.QP` (`H, h, A, Al, Au, l, u`). The member functions change their reference arguments; here they
  return the new QP.
* A sparse matrix is a dense matrix together with the set of stored positions, which scaling does not change;
  `H.uncompress()` has no counterpart.
* The square root is the parameter `sq`. Division by zero is the outcome `none`.
* `maxCoeff`, `minCoeff` and `mean` require `N > 0` and `M > 0` (Eigen asserts this).
-/

namespace PolyMPC.Ruiz
open Matrix PolyMPC.Spec

variable {K : Type*} [Field K] [LinearOrder K] [IsStrictOrderedRing K] {N M : ℕ}

/-- Data members of `RuizEquilibration`, qp_preconditioners.hpp:122-124 and 146-147 (`Dx` is never used). -/
structure State (K : Type*) (N M : ℕ) where
  D : Fin N → K
  E : Fin M → K
  c : K
  mD : Fin N → K
  mE : Fin M → K

/-- Constructor, qp_preconditioners.hpp:136-143. -/
def init : State K N M := { D := fun _ => 1, E := fun _ => 1, c := 1, mD := fun _ => 1, mE := fun _ => 1 }

/-- `maxCoeff()` of a nonempty vector, used in lines 179, 266, 435, 445 and 509. -/
def maxCoeff [NeZero N] (v : Fin N → K) : K := Finset.univ.sup' ⟨0, Finset.mem_univ _⟩ v

/-- `mean()`, lines 205, 289, 468 and 532. -/
def mean (v : Fin N → K) : K := (∑ i, v i) / (N : K)

/-- `maxxCoeff`, qp_preconditioners.hpp:223-233, of the stored absolute values; `lowest` is
`numeric_limits::lowest()`. -/
def maxStored {n : ℕ} (lowest : K) (stored : Fin n → Bool) (v : Fin n → K) : K :=
  (List.finRange n).foldl (fun best i => if stored i then (if best > |v i| then best else |v i|) else best) lowest

/-- The points in which the dense and the sparse variants of `compute` and `update` differ. -/
structure Variant (K : Type*) (N M : ℕ) where
  /-- `_approx_zero` -/
  approxZero : K
  /-- norms of the columns of `H` -/
  colH : Matrix (Fin N) (Fin N) K → Fin N → K
  /-- norms of the columns of `A` -/
  colA : Matrix (Fin M) (Fin N) K → Fin N → K
  /-- norms of the rows of `A` -/
  rowA : Matrix (Fin M) (Fin N) K → Fin M → K
  /-- the value used for the norm of `h` in the cost factor -/
  hNorm : K → K

/-- `compute`, dense: lines 166, 174-177, 202-205. `eps` is `numeric_limits::epsilon()`. -/
def denseVariant (eps : K) : Variant K N M where
  approxZero := eps
  colH H j := infNorm fun i => H i j
  colA A j := infNorm fun i => A i j
  rowA A i := infNorm fun j => A i j
  hNorm x := if x > eps then x else 1

/-- `update`, dense: lines 433, 441-443, 467-468. The norm of `h` is not guarded. (Instantiating this member does not
compile for `N > 1`: line 443 combines a column with a row vector, and line 469 uses `noalias() *=`; it is modelled as the
text reads.) -/
def denseUpdateVariant (eps : K) : Variant K N M := { denseVariant eps with hNorm := id }

/-- `compute`, sparse: lines 250, 258-264, 288-289 (`approxZero = 1e-4`), and `update`, sparse: lines 494, 502-507,
531-532 (`approxZero = epsilon`). `sH` and `sA` are the stored positions. -/
def sparseVariant (approxZero lowest : K) (sH : Fin N → Fin N → Bool) (sA : Fin M → Fin N → Bool) : Variant K N M where
  approxZero := approxZero
  colH H j := maxStored lowest (fun i => sH i j) fun i => H i j
  colA A j := maxStored lowest (fun i => sA i j) fun i => A i j
  rowA A i := maxStored lowest (fun j => sA i j) fun j => A i j
  hNorm := id

/-- "avoid singularities", lines 182-186, 269-273, 448-452 and 512-516. -/
def guardZero {n : ℕ} (eps : K) (v : Fin n → K) : Fin n → K := fun k => if v k < eps then 1 else v k

/-- `v.cwiseSqrt().cwiseInverse()`, lines 189-190, 276-277, 455-456 and 519-520. -/
def invSqrt {n : ℕ} (sq : K → K) (v : Fin n → K) : Fin n → K := fun k => (sq (v k))⁻¹

/-- Scaling of `H`, `A` and `h` within a sweep, lines 193-195, 283-285 (`factor = 1`), 462-464 and 526-528
(`factor = m_c`). -/
def scaleMatrices (factor : K) (mD : Fin N → K) (mE : Fin M → K) (qp : QP K N M) : QP K N M :=
  { qp with
    H := Matrix.of fun i j => factor * mD i * qp.H i j * mD j
    A := Matrix.of fun i j => mE i * qp.A i j * mD j
    h := fun i => factor * (qp.h i * mD i) }

/-- Multiplication of the cost by `gamma_scaling`, lines 206-207, 290-291, 469-470 and 533-534. -/
def scaleCost (gamma : K) (qp : QP K N M) : QP K N M :=
  { qp with H := Matrix.of fun i j => qp.H i j * gamma, h := fun i => qp.h i * gamma }

/-- One pass of the `while` loop: `compute`, lines 173-210 and 257-294 (`withC = false`), and `update`, lines 440-473 and
501-537 (`withC = true`, `H` and `h` are also multiplied by `m_c`). Returns the new members, the new data and
`scaling_norm`. The order of updating `D`, `E` and scaling the matrices differs between the variants without effect. -/
def sweep [NeZero N] [NeZero M] (var : Variant K N M) (sq : K → K) (withC : Bool) (P : State K N M) (qp : QP K N M) :
    Option (State K N M × QP K N M × K) :=
  let nE := var.rowA qp.A
  let nD := fun j => max (var.colH qp.H j) (var.colA qp.A j)
  let scalingNorm := max (maxCoeff nD) (maxCoeff nE)
  let mD := invSqrt sq (guardZero var.approxZero nD)
  let mE := invSqrt sq (guardZero var.approxZero nE)
  let qp1 := scaleMatrices (if withC then P.c else 1) mD mE qp
  let nH := var.colH qp1.H
  let divisor := max (mean nH) (var.hNorm (infNorm qp1.h))
  if divisor = 0 then none
  else
    let gamma := 1 / divisor
    some ({ D := fun i => P.D i * mD i, E := fun i => P.E i * mE i, c := P.c * gamma, mD := nH, mE := mE },
      scaleCost gamma qp1, scalingNorm)

/-- `_tolerance`, lines 167, 251, 434 and 495. -/
def tolerance : K := 1 / 1000

/-- The `while` loop, lines 171-211, 255-295, 438-474 and 499-538; `fuel` is `max_iter - iter` and `continues` the second
part of the loop condition. -/
def loop [NeZero N] [NeZero M] (var : Variant K N M) (sq : K → K) (withC : Bool) (continues : K → Bool) :
    ℕ → State K N M → QP K N M → K → Option (State K N M × QP K N M)
  | 0, P, qp, _ => some (P, qp)
  | fuel + 1, P, qp, norm =>
    if continues norm then
      match sweep var sq withC P qp with
      | none => none
      | some (P', qp', norm') => loop var sq withC continues fuel P' qp' norm'
    else some (P, qp)

/-- Scaling of the bounds, lines 213-219, 300-306, 321-327, 343-349, 476-482 and 543-549. -/
def scaleBounds (P : State K N M) (qp : QP K N M) : QP K N M :=
  { qp with
    Aub := fun i => qp.Aub i * P.E i
    Alb := fun i => qp.Alb i * P.E i
    xlb := fun i => qp.xlb i * (P.D i)⁻¹
    xub := fun i => qp.xub i * (P.D i)⁻¹ }

/-- `compute`, dense: lines 153-220, sparse: lines 237-307. -/
def compute [NeZero N] [NeZero M] (var : Variant K N M) (sq : K → K) (_P : State K N M) (qp : QP K N M) :
    Option (State K N M × QP K N M) :=
  (loop var sq false (fun norm => decide (1 - norm ≥ tolerance)) 4 init qp (10 * tolerance)).map fun (P, qp) =>
    (P, scaleBounds P qp)

/-- `update`, dense: lines 426-483. The loop condition is `1 - scaling_norm <= _tolerance` and `scaling_norm` starts from
the members left by the previous call. -/
def updateDense [NeZero N] [NeZero M] (eps : K) (sq : K → K) (P : State K N M) (qp : QP K N M) :
    Option (State K N M × QP K N M) :=
  (loop (denseUpdateVariant eps) sq true (fun norm => decide (1 - norm ≤ tolerance)) 4 P qp
    (max (maxCoeff P.mD) (maxCoeff P.mE))).map fun (P, qp) => (P, scaleBounds P qp)

/-- `update`, sparse: lines 487-550. -/
def updateSparse [NeZero N] [NeZero M] (eps lowest : K) (sH : Fin N → Fin N → Bool) (sA : Fin M → Fin N → Bool)
    (sq : K → K) (P : State K N M) (qp : QP K N M) : Option (State K N M × QP K N M) :=
  (loop (sparseVariant eps lowest sH sA) sq true (fun norm => decide (1 - norm ≥ tolerance)) 4 P qp
    (10 * tolerance)).map fun (P, qp) => (P, scaleBounds P qp)

/-- `scale` of the QP data, lines 311-350. -/
def scale (P : State K N M) (qp : QP K N M) : QP K N M :=
  scaleBounds P (scaleMatrices P.c P.D P.E qp)

/-- `unscale` of the QP data, lines 368-406. -/
def unscale (P : State K N M) (qp : QP K N M) : QP K N M :=
  { H := Matrix.of fun i j => 1 / P.c * (P.D i)⁻¹ * qp.H i j * (P.D j)⁻¹
    A := Matrix.of fun i j => (P.E i)⁻¹ * qp.A i j * (P.D j)⁻¹
    h := fun i => 1 / P.c * (qp.h i * (P.D i)⁻¹)
    Aub := fun i => qp.Aub i * (P.E i)⁻¹
    Alb := fun i => qp.Alb i * (P.E i)⁻¹
    xlb := fun i => qp.xlb i * P.D i
    xub := fun i => qp.xub i * P.D i }

/-- `unscale_hessian`, lines 409-422. -/
def unscaleHessian (P : State K N M) (H : Matrix (Fin N) (Fin N) K) : Matrix (Fin N) (Fin N) K :=
  Matrix.of fun i j => 1 / P.c * (P.D i)⁻¹ * H i j * (P.D j)⁻¹

/-- `scale` of a primal-dual pair, lines 353-358; the dual vector is indexed by `Fin M ⊕ Fin N` (`head<M>`, `tail<N>`). -/
def scalePair (P : State K N M) (xy : (Fin N → K) × (Fin M ⊕ Fin N → K)) : (Fin N → K) × (Fin M ⊕ Fin N → K) :=
  (fun i => xy.1 i * (P.D i)⁻¹,
   Sum.elim (fun i => P.c * (xy.2 (Sum.inl i) * (P.E i)⁻¹)) (fun i => P.c * (xy.2 (Sum.inr i) * P.D i)))

/-- `unscale` of a primal-dual pair, lines 360-365. -/
def unscalePair (P : State K N M) (xy : (Fin N → K) × (Fin M ⊕ Fin N → K)) : (Fin N → K) × (Fin M ⊕ Fin N → K) :=
  (fun i => xy.1 i * P.D i,
   Sum.elim (fun i => 1 / P.c * (xy.2 (Sum.inl i) * P.E i)) (fun i => 1 / P.c * (xy.2 (Sum.inr i) * (P.D i)⁻¹)))

end PolyMPC.Ruiz
