import Verif.Model.Ocp
import Verif.Model.Sparse

/-!
# Transcription of an optimal control problem, sparse format

Model of the sparse specialisations in `src/control/continuous_ocp.hpp`: the composite differentiation matrix, the reserved numbers of
non-zeros, the constraint linearisations with their first-time and their pattern-reusing versions. Sparse matrices are those of
`Verif.Model.Sparse`.
-/

namespace PolyMPC.Ocp
open AD Sparse Sparse.Csc

variable {K : Type} [Field K]

/-! ### Reserved sizes -/

/-- `estimate_jac_inner_nnz`, continuous_ocp.hpp:342-360. -/
def eqNnz (d : Dims) : ℕ → ℕ :=
  let z := setSeg (fun _ => 0) 0 (d.VARX + d.VARU) fun _ => d.NX
  let z := setSeg z (d.VAR - d.NP) d.NP fun _ => d.VARX
  let z := loop d.NN (fun i z =>
    let z := addSeg z (i * d.NX) d.NX fun _ => d.N - 1
    if i ≠ 0 ∧ i ≠ d.NN - 1 ∧ i % d.N = 0 then addSeg z (i * d.NX) d.NX fun _ => d.N else z) z
  addSeg z ((d.NN - (d.N + 1)) * d.NX) ((d.N + 1) * d.NX) fun _ => 1

/-- `estimate_hes_inner_nnz`, continuous_ocp.hpp:363-369. -/
def hesNnz (d : Dims) : ℕ → ℕ := setSeg (fun _ => d.NX + d.NU + d.NP) (d.VAR - d.NP) d.NP fun _ => d.VAR

/-- `estimate_ineq_jac_inner_nnz`, continuous_ocp.hpp:372-378. -/
def ineqNnz (d : Dims) : ℕ → ℕ :=
  let z := setSeg (fun _ => 0) 0 (d.VARX + d.VARU) fun _ => d.NG
  setSeg z (d.VAR - d.NP) d.NP fun _ => d.NINEQ

/-- `sum()` of a vector of sizes. -/
def sumNnz (d : Dims) (z : ℕ → ℕ) : ℕ := ∑ c ∈ Finset.range d.VAR, z c

/-- `nnz_jacobian`, sparse, continuous_ocp.hpp:381-387. -/
def nnzJacobian (d : Dims) : ℕ := sumNnz d (eqNnz d) + sumNnz d (ineqNnz d)

/-- `nnz_lag_hessian`, sparse, continuous_ocp.hpp:390-396. -/
def nnzLagHessian (d : Dims) : ℕ := (sumNnz d (hesNnz d) + d.VAR) / 2

/-! ### Composite differentiation matrix -/

/-- The matrix `DM` of continuous_ocp.hpp:325-328, or `m_D` itself for a single segment (319-323). -/
def compositeD (d : Dims) (A : Approx K) : ℕ → ℕ → K :=
  if d.S < 2 then A.D else
  loop (d.S - 1) (fun q DM => setBlock DM (q * d.N) (q * d.N) d.N (d.N + 1) A.D)
    (setBlock (fun _ _ => 0) (d.NN - (d.N + 1)) (d.NN - (d.N + 1)) (d.N + 1) (d.N + 1) A.D)

variable [DecidableEq K]

/-- Columns of `m_DiffMat`, the Kronecker product of the composite matrix with the identity, continuous_ocp.hpp:313-339. The product of a
dense matrix keeps all entries (S < 2); `sparseView().pruned(eps)` (330) drops those that are negligible, here those that are zero. -/
def diffMatCols (d : Dims) (A : Approx K) (c : ℕ) : List (ℕ × K) :=
  ((List.range d.NN).filter fun k => decide (d.S < 2) || !decide (compositeD d A k (c / d.NX) = 0)).map
    fun k => (k * d.NX + c % d.NX, compositeD d A k (c / d.NX))

/-- `m_DiffMat.diagonal()(i)`. -/
def diffMatDiag (d : Dims) (A : Approx K) (i : ℕ) : K :=
  match (diffMatCols d A i).find? fun e => e.1 = i with
  | some e => e.2
  | none => 0

/-! ### Equality constraints -/

/-- The insertions for one node, continuous_ocp.hpp:937-947. -/
def eqIns (d : Dims) (ts : K) (t : ℕ) (jac : ℕ → ℕ → K) : List (Op K) :=
  (List.range d.NX).flatMap fun j =>
    ((List.range d.NX).map fun m => Op.ins (j + t * d.NX) (m + t * d.NX) (-ts * jac j m)) ++
    (((List.range d.NU).map fun m => Op.ins (j + t * d.NX) (m + t * d.NU + d.VARX) (-ts * jac j (m + d.NX))) ++
     ((List.range d.NP).map fun m => Op.ins (j + t * d.NX) (d.VARX + d.VARU + m) (-ts * jac j (d.NX + d.NU + m))))

/-- `_equalities_linearised_sparse`, continuous_ocp.hpp:896-954. The matrix handed in has no entries yet. -/
def eqLinFresh (d : Dims) (A : Approx K) (cb : Cbs d K) (o : Obj d K) (junk : ℕ → ℕ → K) (var c0 : ℕ → K) (J : Csc K) :
    Option ((ℕ → K) × Csc K × Obj d K) :=
  let ts := tScale d o
  let DX := diffX d A var junk
  let s := loop d.NN (fun t (s : (ℕ → Dual d.M K) × (ℕ → K) × Option (Csc K)) =>
    let y := cb.dynAD (node d var t) (o.time t) s.1
    let c := setSeg s.2.1 (t * d.NX) d.NX fun i => -ts * (y i).val
    let c := addSeg c (t * d.NX) d.NX fun i => DX t i
    (y, c, s.2.2.bind (runOps d.VAR (eqIns d ts t fun j m => derAt (y j) m)))) (o.adY, c0, some (J.reserve (eqNnz d)))
  (s.2.2.bind fun J => J.addLeft d.VARX (diffMatCols d A)).map fun J => (s.2.1, J, { o with adY := s.1 })

/-- The copies for one node, continuous_ocp.hpp:998-1009. -/
def eqPut (d : Dims) (t cnt : ℕ) (jac : ℕ → ℕ → K) : List (Op K) :=
  ((List.range d.NX).map fun j => Op.put (t * d.NX + j) cnt d.NX fun b => jac b j) ++
  (Op.put (t * d.NU + d.VARX) 0 (d.NX * d.NU) (fun q => jac (q % d.NX) (d.NX + q / d.NX)) ::
   ((List.range d.NP).map fun j => Op.put (j + d.VARX + d.VARU) (t * d.NX) d.NX fun b => jac b (j + d.NX + d.NU)))

/-- `_equalities_linearised_sparse_update`, continuous_ocp.hpp:958-1022; the fourth component of the state is `nnz_count`. -/
def eqLinUpdate (d : Dims) (A : Approx K) (cb : Cbs d K) (o : Obj d K) (junk : ℕ → ℕ → K) (var c0 : ℕ → K) (J : Csc K) :
    Option ((ℕ → K) × Csc K × Obj d K) :=
  let ts := tScale d o
  let DX := diffX d A var junk
  let s := loop d.NN (fun t (s : (ℕ → Dual d.M K) × (ℕ → K) × Option (Csc K) × ℕ) =>
    let y := cb.dynAD (node d var t) (o.time t) s.1
    let c := setSeg s.2.1 (t * d.NX) d.NX fun i => -ts * (y i).val
    let c := addSeg c (t * d.NX) d.NX fun i => DX t i
    let cnt := if d.N < s.2.2.2 then 1 else s.2.2.2
    (y, c, s.2.2.1.bind (runOps d.VAR (eqPut d t cnt fun j m => derAt (y j) m * -ts)), cnt + 1)) (o.adY, c0, some J, 0)
  let J := loop d.VARX (fun i J => J.bind fun J : Csc K => J.coeffAdd i i (diffMatDiag d A i)) s.2.2.1
  J.map fun J => (s.2.1, J, { o with adY := s.1 })

/-- `equalities_linearised`, sparse, continuous_ocp.hpp:883-892. `none` also if the matrix has entries, but not as many as expected: the
insertions then meet the old entries. -/
def eqLinSparse (d : Dims) (A : Approx K) (cb : Cbs d K) (o : Obj d K) (junk : ℕ → ℕ → K) (var c0 : ℕ → K) (J : Csc K) :
    Option ((ℕ → K) × Csc K × Obj d K) :=
  if J.nonZeros d.VAR ≠ sumNnz d (eqNnz d) then
    if J.nonZeros d.VAR ≠ 0 then none else eqLinFresh d A cb o junk var c0 J
  else eqLinUpdate d A cb o junk var c0 J

/-! ### Inequality constraints -/

/-- The insertions for one node, continuous_ocp.hpp:1079-1089. -/
def ineqIns (d : Dims) (k : ℕ) (jac : ℕ → ℕ → K) : List (Op K) :=
  (List.range d.NG).flatMap fun j =>
    ((List.range d.NX).map fun m => Op.ins (j + k * d.NG) (m + k * d.NX) (jac j m)) ++
    (((List.range d.NU).map fun m => Op.ins (j + k * d.NG) (m + k * d.NU + d.VARX) (jac j (m + d.NX))) ++
     ((List.range d.NP).map fun m => Op.ins (j + k * d.NG) (d.VARX + d.VARU + m) (jac j (d.NX + d.NU + m))))

/-- `_inequalities_linearised_sparse`, continuous_ocp.hpp:1052-1091. -/
def ineqLinFresh (d : Dims) (cb : Cbs d K) (o : Obj d K) (var c0 : ℕ → K) (J : Csc K) : Option ((ℕ → K) × Csc K × Obj d K) :=
  let s := loop d.NN (fun k (s : (ℕ → Dual d.M K) × (ℕ → K) × Option (Csc K)) =>
    let g := cb.ineqAD (node d var k) (o.time k) s.1
    let c := setSeg s.2.1 (k * d.NG) d.NG fun i => (g i).val
    (g, c, s.2.2.bind (runOps d.VAR (ineqIns d k fun j m => derAt (g j) m)))) (o.adG, c0, some (J.reserve (ineqNnz d)))
  s.2.2.map fun J => (s.2.1, J, { o with adG := s.1 })

/-- The copies for one node, continuous_ocp.hpp:1119-1128. `jac` is the temporary, which has `NX` rows (1102): `data()` of a block of its
columns is the start of the first of these columns, and the copy reads the memory from there on. -/
def ineqPut (d : Dims) (k : ℕ) (jac : ℕ → ℕ → K) : List (Op K) :=
  Op.put (k * d.NX) 0 (d.NG * d.NX) (fun q => jac (q % d.NX) (q / d.NX)) ::
  Op.put (k * d.NU + d.VARX) 0 (d.NG * d.NU) (fun q => jac (q % d.NX) (d.NX + q / d.NX)) ::
  ((List.range d.NP).map fun j => Op.put (j + d.VARX + d.VARU) (k * d.NG) d.NG fun b => jac b (j + d.NX + d.NU))

/-- `_inequalities_linearised_sparse_update`, continuous_ocp.hpp:1095-1130. `jac0` is the uninitialised storage of the temporary, whose rows
are assigned one by one (1117). `none` stands for the failing assertion in `jac.row(i)` when `NG > NX`. -/
def ineqLinUpdate (d : Dims) (cb : Cbs d K) (o : Obj d K) (jac0 : ℕ → ℕ → K) (var c0 : ℕ → K) (J : Csc K) :
    Option ((ℕ → K) × Csc K × Obj d K) :=
  if d.NX < d.NG then none else
  let s := loop d.NN (fun k (s : (ℕ → Dual d.M K) × (ℕ → K) × Option (Csc K) × (ℕ → ℕ → K)) =>
    let g := cb.ineqAD (node d var k) (o.time k) s.1
    let c := setSeg s.2.1 (k * d.NG) d.NG fun i => (g i).val
    let jac : ℕ → ℕ → K := fun r m => if r < d.NG then derAt (g r) m else s.2.2.2 r m
    (g, c, s.2.2.1.bind (runOps d.VAR (ineqPut d k jac)), jac)) (o.adG, c0, some J, jac0)
  s.2.2.1.map fun J => (s.2.1, J, { o with adG := s.1 })

/-- `inequalities_linearised`, sparse, continuous_ocp.hpp:1038-1047; without path constraints nothing happens (503-531). -/
def ineqLinSparse (d : Dims) (cb : Cbs d K) (o : Obj d K) (jac0 : ℕ → ℕ → K) (var c0 : ℕ → K) (J : Csc K) :
    Option ((ℕ → K) × Csc K × Obj d K) :=
  if d.NG = 0 then some (c0, J, o) else
  if J.nonZeros d.VAR ≠ sumNnz d (ineqNnz d) then
    if J.nonZeros d.VAR ≠ 0 then none else ineqLinFresh d cb o var c0 J
  else ineqLinUpdate d cb o jac0 var c0 J

/-! ### All constraints -/

/-- `block_insert_sparse`, continuous_ocp.hpp:407-416, as a list of insertions. -/
def blockIns (d : Dims) (r0 : ℕ) (B : Csc K) : List (Op K) :=
  (List.range d.VAR).flatMap fun c => (B.col c).map fun e => Op.ins (r0 + e.1) c e.2

/-- The two copy loops of `constraints_linearised`, continuous_ocp.hpp:1167-1175. -/
def blockPut (d : Dims) (Je Ji : Csc K) : List (Op K) :=
  (if 0 < d.NEQ then (List.range d.VAR).map fun k => Op.put k 0 (Je.cnt k) fun q => Je.val (Je.start k + q) else []) ++
  (if 0 < d.NINEQ then (List.range d.VAR).map fun k => Op.put k (Je.cnt k) (Ji.cnt k) fun q => Ji.val (Ji.start k + q) else [])

/-- Assembling the Jacobian from its two parts, continuous_ocp.hpp:1158-1176; the same statements are in `lagrangian_gradient` (1990-2010)
and `lagrangian_gradient_hessian` (2191-2211). `none` also if the matrix has entries, but not as many as expected. -/
def assemble (d : Dims) (Je Ji J : Csc K) : Option (Csc K) :=
  if J.nonZeros d.VAR ≠ sumNnz d (eqNnz d) + sumNnz d (ineqNnz d) then
    if J.nonZeros d.VAR ≠ 0 then none else
    runOps d.VAR (blockIns d 0 Je ++ blockIns d d.NEQ Ji) (J.reserve fun c => eqNnz d c + ineqNnz d c)
  else runOps d.VAR (blockPut d Je Ji) J

/-- The members `m_Je`, `m_Ji` (continuous_ocp.hpp:185-186, allocated empty at 400-405) and the caller's matrix. -/
structure SpJac (K : Type) where
  Je : Csc K
  Ji : Csc K
  J : Csc K

/-- `constraints_linearised`, sparse, continuous_ocp.hpp:1149-1177. -/
def constraintsLinSparse (d : Dims) (A : Approx K) (cb : Cbs d K) (o : Obj d K) (junk jac0 : ℕ → ℕ → K) (var c0 : ℕ → K) (m : SpJac K) :
    Option ((ℕ → K) × SpJac K × Obj d K) := do
  let e ← eqLinSparse d A cb o junk var c0 m.Je
  let c := setSeg c0 0 d.NEQ e.1
  let g ← ineqLinSparse d cb e.2.2 jac0 var (fun i => c (d.NEQ + i)) m.Ji
  let J ← assemble d e.2.1 g.2.1 m.J
  some (setSeg c d.NEQ d.NINEQ g.1, ⟨e.2.1, g.2.1, J⟩, g.2.2)

end PolyMPC.Ocp
