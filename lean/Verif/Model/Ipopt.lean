import Verif.Model.Sparse
import Mathlib.Algebra.Order.Group.Abs

/-!
# The Ipopt adapter (src/solvers/ipopt_interface.hpp)

The callbacks through which Ipopt sees a problem. Arrays that Ipopt hands over are buffers of a stated capacity; a write behind the end
is an undefined outcome (`none`), and so is a read behind the end of an array that Ipopt passes in. The problem itself (its cost,
constraints and derivatives) is a parameter. Ipopt is not modelled: what it does with the arrays is the separate specification in
`Verif.Spec.Ipopt`. The dense problem is `ProblemBase` (src/solvers/nlproblem.hpp), the sparse one the sparse `ContinuousOCP`.
-/

namespace PolyMPC.Ipopt
open PolyMPC.Sparse

variable {K : Type}

/-! ### Filling the arrays -/

/-- `data[ind] = v; ++ind;`, ipopt_interface.hpp:103-104, 124-125, 135-136. -/
def emit (cap : ℕ) (v : K) : Option (ℕ × (ℕ → K)) → Option (ℕ × (ℕ → K))
  | some (ind, data) => if ind < cap then some (ind + 1, Function.update data ind v) else none
  | none => none

/-- `irow[ind] = i; jcol[ind] = j; ++ind;`, ipopt_interface.hpp:157-159, 167-168, 189-191, 202-203. -/
def emit2 (cap i j : ℕ) : Option (ℕ × (ℕ → ℕ) × (ℕ → ℕ)) → Option (ℕ × (ℕ → ℕ) × (ℕ → ℕ))
  | some (ind, irow, jcol) => if ind < cap then some (ind + 1, Function.update irow ind i, Function.update jcol ind j) else none
  | none => none

/-- `get_data`, sparse, ipopt_interface.hpp:91-111, for a matrix with `n` columns. The branch for non-symmetric matrices assigns
`mat.valuePtr()` to the local copy of the pointer (line 110): the caller's array is not touched. -/
def getDataSparse (cap n : ℕ) (A : Csc K) (symmetric : Bool) (data : ℕ → K) : Option (ℕ → K) :=
  if symmetric then
    ((List.range n).foldl (fun s k => (A.col k).foldl (fun s e => if k ≤ e.1 then emit cap e.2 s else s) s) (some (0, data))).map fun s => s.2
  else some data

/-- `get_data`, dense, ipopt_interface.hpp:113-139. -/
def getDataDense (cap m n : ℕ) (A : ℕ → ℕ → K) (symmetric : Bool) (data : ℕ → K) : Option (ℕ → K) :=
  if symmetric then
    ((List.range n).foldl (fun s j => (List.range m).foldl (fun s i => if j ≤ i then emit cap (A i j) s else s) s) (some (0, data))).map fun s => s.2
  else
    ((List.range n).foldl (fun s j => (List.range m).foldl (fun s i => emit cap (A i j) s) s) (some (0, data))).map fun s => s.2

/-- `get_sparsity`, sparse, ipopt_interface.hpp:142-171. -/
def getSparsitySparse (cap n : ℕ) (A : Csc K) (symmetric : Bool) (irow jcol : ℕ → ℕ) : Option ((ℕ → ℕ) × (ℕ → ℕ)) :=
  if symmetric then
    ((List.range n).foldl (fun s k => (A.col k).foldl (fun s e => if k ≤ e.1 then emit2 cap e.1 k s else s) s) (some (0, irow, jcol))).map
      fun s => s.2
  else
    ((List.range n).foldl (fun s k => (A.col k).foldl (fun s e => emit2 cap e.1 k s) s) (some (0, irow, jcol))).map fun s => s.2

/-- `get_sparsity`, dense, ipopt_interface.hpp:173-208. -/
def getSparsityDense (cap m n : ℕ) (symmetric : Bool) (irow jcol : ℕ → ℕ) : Option ((ℕ → ℕ) × (ℕ → ℕ)) :=
  if symmetric then
    ((List.range n).foldl (fun s j => (List.range m).foldl (fun s i => if j ≤ i then emit2 cap i j s else s) s) (some (0, irow, jcol))).map
      fun s => s.2
  else
    ((List.range n).foldl (fun s j => (List.range m).foldl (fun s i => emit2 cap i j s) s) (some (0, irow, jcol))).map fun s => s.2

/-- `nnz_jacobian`, nlproblem.hpp:216-219, for `m` constraints and `n` variables. -/
def denseNnzJacobian (m n : ℕ) : ℕ := m * n

/-- `nnz_lag_hessian`, nlproblem.hpp:222-225. -/
def denseNnzLagHessian (n : ℕ) : ℕ := n * (n + 1) / 2

/-! ### State of the adapter -/

/-- The members the callbacks use, ipopt_interface.hpp:77-87: `n` variables, `e` equalities, `q` inequalities. -/
structure Adapter (R : Type) where
  n : ℕ
  e : ℕ
  q : ℕ
  x : ℕ → R
  lam : ℕ → R
  cost : R
  lbx : ℕ → R
  ubx : ℕ → R
  lbg : ℕ → R
  ubg : ℕ → R

/-- The constructor, ipopt_interface.hpp:34-46 (the sensitivity computation of the sparse case is described with the problem). -/
def Adapter.make {R : Type} [Zero R] [Bot R] [Top R] (n e q : ℕ) : Adapter R where
  n := n
  e := e
  q := q
  x _ := 0
  lam _ := 0
  cost := 0
  lbx _ := ⊥
  ubx _ := ⊤
  lbg _ := ⊥
  ubg _ := ⊤

/-- `Map<...>(p + off, len) = f`. -/
def mapWrite {R : Type} (off len : ℕ) (f p : ℕ → R) : ℕ → R := fun t => if off ≤ t ∧ t < off + len then f (t - off) else p t

/-- `get_bounds_info`, ipopt_interface.hpp:228-253. -/
def getBoundsInfo {R : Type} [Zero R] (a : Adapter R) (xl xu gl gu : ℕ → R) : (ℕ → R) × (ℕ → R) × (ℕ → R) × (ℕ → R) :=
  let xl := mapWrite 0 a.n a.lbx xl
  let xu := mapWrite 0 a.n a.ubx xu
  let gl := if 0 < a.e then mapWrite 0 a.e (fun _ => 0) gl else gl
  let gu := if 0 < a.e then mapWrite 0 a.e (fun _ => 0) gu else gu
  let gl := if 0 < a.q then mapWrite a.e a.q a.lbg gl else gl
  let gu := if 0 < a.q then mapWrite a.e a.q a.ubg gu else gu
  (xl, xu, gl, gu)

/-- The arrays of `get_starting_point`. -/
structure Start (R : Type) where
  x : ℕ → R
  zL : ℕ → R
  zU : ℕ → R
  lambda : ℕ → R

/-- `get_starting_point`, ipopt_interface.hpp:255-275. `m_lam` has the multipliers of the constraints first, then those of the bounds. -/
def getStartingPoint {R : Type} [AddGroup R] [LinearOrder R] (a : Adapter R) (initX initZ initLambda : Bool) (s : Start R) : Start R where
  x := if initX then mapWrite 0 a.n a.x s.x else s.x
  zL := if initZ then mapWrite 0 a.n (fun i => |min (a.lam (a.e + a.q + i)) 0|) s.zL else s.zL
  zU := if initZ then mapWrite 0 a.n (fun i => max (a.lam (a.e + a.q + i)) 0) s.zU else s.zU
  lambda := if initLambda then mapWrite 0 (a.e + a.q) a.lam s.lambda else s.lambda

/-- `eval_g`, ipopt_interface.hpp:296-309: equalities first, inequalities in the last `q` entries of the `e + q`. -/
def evalG {R : Type} (a : Adapter R) (equalities inequalities : (ℕ → R) → ℕ → R) (x g : ℕ → R) : ℕ → R :=
  mapWrite a.e a.q (inequalities x) (mapWrite 0 a.e (equalities x) g)

/-- `Eigen::Map<const Vector<len>>(p)` on an array with the given contents: reading behind its end is undefined. -/
def mapRead {R : Type} [Zero R] (len : ℕ) (p : List R) : Option (ℕ → R) := if len ≤ p.length then some fun i => p.getD i 0 else none

/-- `eval_h` with values, ipopt_interface.hpp:348-358, dense problem with Hessian `hess x lam obj_factor`. The array `lambda` is mapped as
a vector of the size of `nlp_dual_t`, that is `e + q + n`. -/
def evalH {R : Type} [Zero R] (a : Adapter R) (hess : (ℕ → R) → (ℕ → R) → R → ℕ → ℕ → R) (cap : ℕ) (x : List R) (objFactor : R) (lambda : List R)
    (values : ℕ → R) : Option (ℕ → R) :=
  (mapRead a.n x).bind fun x => (mapRead (a.e + a.q + a.n) lambda).bind fun lam => getDataDense cap a.n a.n (hess x lam objFactor) true values

/-- `eval_jac_g` with values, ipopt_interface.hpp:331-335, dense problem with Jacobian `jac x`. -/
def evalJacG {R : Type} [Zero R] (a : Adapter R) (jac : (ℕ → R) → ℕ → ℕ → R) (cap : ℕ) (x : List R) (values : ℕ → R) : Option (ℕ → R) :=
  (mapRead a.n x).bind fun x => getDataDense cap (a.e + a.q) a.n (jac x) false values

/-- `eval_jac_g` with values, sparse problem. -/
def evalJacGSparse {R : Type} [Zero R] (a : Adapter R) (jac : (ℕ → R) → Csc R) (cap : ℕ) (x : List R) (values : ℕ → R) : Option (ℕ → R) :=
  (mapRead a.n x).bind fun x => getDataSparse cap a.n (jac x) false values

/-- `finalize_solution`, ipopt_interface.hpp:362-378. `z_L`, `z_U` and `g` are not read. -/
def finalizeSolution {R : Type} [Zero R] (a : Adapter R) (x zL zU g lambda : List R) (objValue : R) : Option (Adapter R) :=
  (mapRead a.n x).bind fun x => (mapRead (a.e + a.q + a.n) lambda).map fun lam => { a with x := x, lam := lam, cost := objValue }

/-- `solve(x_guess, lam_guess)` up to the call of Ipopt, ipopt_interface.hpp:491-496. -/
def guess {R : Type} (a : Adapter R) (x lam : ℕ → R) : Adapter R := { a with x := x, lam := lam }

end PolyMPC.Ipopt
