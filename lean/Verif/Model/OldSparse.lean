import Verif.Model.OldColloc

/-!
# The older collocation class, sparse format

Model of `src/control/sparse_ode_collocation.hpp` (`sparse_ode_collocation`). Sparse matrices are those of `Verif.Model.Sparse`. Conventions
as in `Verif.Model.OldColloc`. A matrix handed to `linearized` has no entries or is the result of an earlier call.
-/

namespace PolyMPC.Sparse.Csc
variable {K : Type}

/-- The compressed matrix with `n` columns that has the given columns (`makeCompressed()` after an assignment). Assumption about Eigen, like
the other definitions in this namespace; `A` is the old storage. -/
def ofCols (A : Csc K) (n : ℕ) (B : ℕ → List (ℕ × K)) : Csc K :=
  let L := (List.range n).flatMap B
  { start := fun c => ((List.range c).flatMap B).length
    cnt := fun c => (B c).length
    idx := fun p => if h : p < L.length then L[p].1 else A.idx p
    val := fun p => if h : p < L.length then L[p].2 else A.val p }

end PolyMPC.Sparse.Csc

namespace PolyMPC.OldColloc
open AD Ocp Sparse Sparse.Csc

variable {K : Type} [Field K] [DecidableEq K]

/-- `compute_inner_nnz`, sparse_ode_collocation.hpp:173-182. `KroneckerProductSparse` leaves its result uncompressed, so `innerNonZeroPtr()`
is the array of the numbers of entries. The matrix `m_DiffMat` (101-131) is the one of `ContinuousOCP`: the Kronecker product of a dense
matrix keeps all entries, `sparseView()` drops those that are zero. `m_DiffMat_Ext` is not used. -/
def spNnz (d : Dims) (A : Approx K) : ℕ → ℕ :=
  let z := setSeg (fun _ => 0) 0 d.VARX fun c => (diffMatCols d A c).length
  let z := addSeg z 0 d.VARX fun _ => d.NX - 1
  setSeg z d.VARX d.VARU fun _ => d.NX

/-- The members, sparse_ode_collocation.hpp:68-69, 82-86. `cols` holds the columns of `m_DiffMat`, or nothing as long as it is a matrix of
size zero. -/
structure SpOde (d : Dims) (K : Type) where
  f : Dyn d K
  cols : Option (ℕ → List (ℕ × K))
  nnz : ℕ → ℕ
  seeded : Bool
  adY : ℕ → Dual (MU d) K

/-- `sparse_ode_collocation()`, sparse_ode_collocation.hpp:92-98. -/
def SpOde.mk0 (d : Dims) (A : Approx K) (f0 : Dyn d K) (y0 : ℕ → Dual (MU d) K) : SpOde d K :=
  ⟨f0, some (diffMatCols d A), spNnz d A, true, y0⟩

/-- `sparse_ode_collocation(const Dynamics &_f){}`, sparse_ode_collocation.hpp:50: nothing but the default member initialiser (86). -/
def SpOde.mk1 (d : Dims) (f0 _f : Dyn d K) (y0 : ℕ → Dual (MU d) K) : SpOde d K := ⟨f0, none, fun _ => 0, false, y0⟩

/-- Product of a sparse matrix with `n` columns and a vector. -/
def spMul (n : ℕ) (B : ℕ → List (ℕ × K)) (v : ℕ → K) (r : ℕ) : K :=
  ∑ c ∈ Finset.range n, (((B c).filter fun e => e.1 = r).map fun e => e.2 * v c).sum

/-- `operator()`, sparse_ode_collocation.hpp:133-153. `v0`, `r0` are the uninitialised `value`, `f_res`; `none` is the failing assertion on
the sizes of the product. -/
def SpOde.eval (d : Dims) (o : SpOde d K) (var : ℕ → K) (t0 tf : K) (v0 r0 : ℕ → K) : Option (ℕ → K) :=
  o.cols.map fun B =>
    let s := loop d.NN (fun t (s : (ℕ → K) × (ℕ → K)) =>
      let f := o.f.plain (nodeXU d var t) (par d var) s.1
      (f, setSeg s.2 (t * d.NX) d.NX f)) (r0, v0)
    fun i => spMul d.VARX B var i - tScale d t0 tf * s.2 i

/-- The insertions for one node, sparse_ode_collocation.hpp:227-235. -/
def spIns (d : Dims) (ts : K) (t : ℕ) (jac : ℕ → ℕ → K) : List (Op K) :=
  (List.range d.NX).flatMap fun j =>
    ((List.range d.NX).map fun m => Op.ins (j + t * d.NX) (m + t * d.NX) (-ts * jac j m)) ++
    ((List.range d.NU).map fun m => Op.ins (j + t * d.NX) (m + t * d.NU + d.VARX) (-ts * jac j (m + d.NX)))

/-- `_linearized`, sparse_ode_collocation.hpp:194-244. -/
def SpOde.fresh (d : Dims) (o : SpOde d K) (B : ℕ → List (ℕ × K)) (var : ℕ → K) (t0 tf : K) (v0 : ℕ → K) (J : Csc K) :
    Option (Csc K × (ℕ → K) × SpOde d K) :=
  let ts := tScale d t0 tf
  let s := loop d.NN (fun t (s : (ℕ → Dual (MU d) K) × (ℕ → K) × Option (Csc K)) =>
    let y := o.f.ad (nodeXU d var t) (par d var) s.1
    let v := setSeg s.2.1 (t * d.NX) d.NX fun i => (y i).val
    (y, v, s.2.2.bind (runOps d.VAR (spIns d ts t fun j m => derAt (y j) m)))) (o.adY, v0, some (J.reserve o.nnz))
  s.2.2.map fun J =>
    (J.ofCols d.VAR fun c => if c < d.VARX then mergeAdd (B c) (J.col c) else J.col c,
      fun i => spMul d.VARX B var i - ts * s.2.1 i, { o with adY := s.1 })

/-- The writes for one node, sparse_ode_collocation.hpp:283-293. -/
def spPut (d : Dims) (ts : K) (t cnt : ℕ) (jac : ℕ → ℕ → K) : List (Op K) :=
  ((List.range d.NX).map fun j => Op.put (t * d.NX + j) cnt d.NX fun m => -ts * jac m j) ++
  ((List.range d.NU).map fun j => Op.put (j + t * d.NU + d.VARX) 0 d.NX fun m => -ts * jac m (j + d.NX))

/-- `m_DiffMat.diagonal()(i)`. -/
def spDiag (B : ℕ → List (ℕ × K)) (i : ℕ) : K :=
  match (B i).find? fun e => e.1 = i with
  | some e => e.2
  | none => 0

/-- `_linearized_same_pattern`, sparse_ode_collocation.hpp:246-301; the fourth component of the state is `nnz_count`. -/
def SpOde.update (d : Dims) (o : SpOde d K) (B : ℕ → List (ℕ × K)) (var : ℕ → K) (t0 tf : K) (v0 : ℕ → K) (J : Csc K) :
    Option (Csc K × (ℕ → K) × SpOde d K) :=
  let ts := tScale d t0 tf
  let s := loop d.NN (fun t (s : (ℕ → Dual (MU d) K) × (ℕ → K) × Option (Csc K) × ℕ) =>
    let y := o.f.ad (nodeXU d var t) (par d var) s.1
    let v := setSeg s.2.1 (t * d.NX) d.NX fun i => (y i).val
    let cnt := if d.N < s.2.2.2 then 1 else s.2.2.2
    (y, v, s.2.2.1.bind (runOps d.VAR (spPut d ts t cnt fun j m => derAt (y j) m)), cnt + 1)) (o.adY, v0, some J, 0)
  let J := loop d.VARX (fun i J => J.bind fun J : Csc K => J.coeffAdd i i (spDiag B i)) s.2.2.1
  J.map fun J => (J, fun i => spMul d.VARX B var i - ts * s.2.1 i, { o with adY := s.1 })

/-- `linearized`, sparse_ode_collocation.hpp:184-193. `none` also if the matrix has entries, but not as many as expected: the insertions then
meet the old entries. -/
def SpOde.linearized (d : Dims) (o : SpOde d K) (var : ℕ → K) (t0 tf : K) (v0 : ℕ → K) (J : Csc K) : Option (Csc K × (ℕ → K) × SpOde d K) :=
  if o.seeded then
    match o.cols with
    | none => none
    | some B =>
      if J.nonZeros d.VAR ≠ sumNnz d o.nnz then
        if J.nonZeros d.VAR ≠ 0 then none else o.fresh d B var t0 tf v0 J
      else o.update d B var t0 tf v0 J
  else none

end PolyMPC.OldColloc
