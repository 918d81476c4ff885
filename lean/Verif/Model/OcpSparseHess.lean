import Verif.Model.OcpSparse

/-!
# Second derivatives in sparse format

Model of the sparse `cost_gradient_hessian`, `lagrangian_gradient`, `lagrangian_gradient_hessian` and `hessian_update_impl` in
`src/control/continuous_ocp.hpp`. The loops over the entries of a node Hessian are lists of accesses to the sparse matrix.
-/

namespace PolyMPC.Ocp
open AD Sparse Sparse.Csc

variable {K : Type} [Field K]

/-! ### Accesses for one node -/

/-- The additions where two segments meet, continuous_ocp.hpp:1441-1518 and again 1741-1817, in the order of the code: dx², dxdu, dxdp, du²,
dudx, dudp, dpdx, dpdu. -/
def hesAdd (d : Dims) (k : ℕ) (h : ℕ → ℕ → K) : List (Op K) :=
  ((List.range d.NX).map fun j => Op.add (k * d.NX + j) 0 d.NX fun b => h b j) ++
  ((List.range d.NU).map fun j => Op.add (k * d.NU + d.VARX + j) 0 d.NX fun b => h b (d.NX + j)) ++
  ((List.range d.NP).map fun j => Op.add (d.VARX + d.VARU + j) (k * d.NX) d.NX fun b => h b (d.NX + d.NU + j)) ++
  ((List.range d.NU).map fun j => Op.add (k * d.NU + d.VARX + j) d.NX d.NU fun b => h (d.NX + b) (d.NX + j)) ++
  ((List.range d.NX).map fun j => Op.add (k * d.NX + j) d.NX d.NU fun b => h (d.NX + b) j) ++
  ((List.range d.NP).map fun j => Op.add (d.VARX + d.VARU + j) (d.VARX + k * d.NU) d.NU fun b => h (d.NX + b) (d.NX + d.NU + j)) ++
  ((List.range d.NX).map fun j => Op.add (k * d.NX + j) (d.NX + d.NU) d.NP fun b => h (d.NX + d.NU + b) j) ++
  ((List.range d.NU).map fun j => Op.add (k * d.NU + d.VARX + j) (d.NX + d.NU) d.NP fun b => h (d.NX + d.NU + b) (d.NX + j))

/-- The insertions, continuous_ocp.hpp:1521-1576. The dxdp block reads column `j + NX + NP` (1540), the dpdu block column `j + NU` (1575). -/
def hesIns (d : Dims) (k : ℕ) (h : ℕ → ℕ → K) : List (Op K) :=
  let P := d.VARX + d.VARU
  ((List.range d.NX).flatMap fun j => (List.range d.NX).map fun r => Op.ins (k * d.NX + r) (k * d.NX + j) (h r j)) ++
  ((List.range d.NU).flatMap fun j => (List.range d.NX).map fun r => Op.ins (k * d.NX + r) (k * d.NU + d.VARX + j) (h r (j + d.NX))) ++
  ((List.range d.NP).flatMap fun j => (List.range d.NX).map fun r => Op.ins (k * d.NX + r) (P + j) (h r (j + d.NX + d.NP))) ++
  ((List.range d.NU).flatMap fun j => (List.range d.NU).map fun r =>
    Op.ins (k * d.NU + d.VARX + r) (k * d.NU + d.VARX + j) (h (r + d.NX) (j + d.NX))) ++
  ((List.range d.NX).flatMap fun j => (List.range d.NU).map fun r => Op.ins (k * d.NU + d.VARX + r) (k * d.NX + j) (h (r + d.NX) j)) ++
  ((List.range d.NP).flatMap fun j => (List.range d.NU).map fun r =>
    Op.ins (k * d.NU + d.VARX + r) (P + j) (h (r + d.NX) (j + d.NX + d.NU))) ++
  ((List.range d.NX).flatMap fun j => (List.range d.NP).map fun r => Op.ins (P + r) (k * d.NX + j) (h (r + d.NX + d.NU) j)) ++
  ((List.range d.NU).flatMap fun j => (List.range d.NP).map fun r =>
    Op.ins (P + r) (k * d.NU + d.VARX + j) (h (r + d.NX + d.NU) (j + d.NU)))

/-- The copies, continuous_ocp.hpp:1820-1834. -/
def hesPut (d : Dims) (k : ℕ) (h : ℕ → ℕ → K) : List (Op K) :=
  ((List.range d.NX).map fun j => Op.put (k * d.NX + j) 0 (d.NX + d.NU + d.NP) fun b => h b j) ++
  ((List.range d.NU).map fun j => Op.put (k * d.NU + d.VARX + j) 0 (d.NX + d.NU + d.NP) fun b => h b (d.NX + j)) ++
  ((List.range d.NP).flatMap fun j =>
    [Op.put (d.VARX + d.VARU + j) (k * d.NX) d.NX (fun b => h b (d.NX + d.NU + j)),
     Op.put (d.VARX + d.VARU + j) (d.VARX + k * d.NU) d.NU fun b => h (d.NX + b) (d.NX + d.NU + j)])

/-- The block dp², inserted (continuous_ocp.hpp:1586-1588). -/
def ppIns (d : Dims) (pp : ℕ → ℕ → K) : List (Op K) :=
  (List.range d.NP).flatMap fun j => (List.range d.NP).map fun r => Op.ins (d.VARX + d.VARU + r) (d.VARX + d.VARU + j) (pp r j)

/-- The block dp², copied (continuous_ocp.hpp:1843-1845). -/
def ppPut (d : Dims) (pp : ℕ → ℕ → K) : List (Op K) :=
  (List.range d.NP).map fun j => Op.put (d.VARX + d.VARU + j) (d.VARX + d.VARU) d.NP fun b => pp b j

/-- The additions of the terminal cost on the first call, continuous_ocp.hpp:1610-1683. -/
def mayerAdd (d : Dims) (h : ℕ → ℕ → K) : List (Op K) :=
  ((List.range d.NX).map fun j => Op.add j 0 d.NX fun b => h b j) ++
  ((List.range d.NU).map fun j => Op.add (d.VARX + j) 0 d.NX fun b => h b (d.NX + j)) ++
  ((List.range d.NP).map fun j => Op.add (d.VARX + d.VARU + j) 0 d.NX fun b => h b (d.NX + d.NU + j)) ++
  ((List.range d.NU).map fun j => Op.add (d.VARX + j) d.NX d.NU fun b => h (d.NX + b) (d.NX + j)) ++
  ((List.range d.NX).map fun j => Op.add j d.NX d.NU fun b => h (d.NX + b) j) ++
  ((List.range d.NP).map fun j => Op.add (d.VARX + d.VARU + j) d.VARX d.NU fun b => h (d.NX + b) (d.NX + d.NU + j)) ++
  ((List.range d.NP).map fun j => Op.add (d.VARX + d.VARU + j) (d.VARX + d.VARU) d.NP fun b => h (d.NX + d.NU + b) (d.NX + d.NU + j)) ++
  ((List.range d.NX).map fun j => Op.add j (d.NX + d.NU) d.NP fun b => h (d.NX + d.NU + b) j) ++
  ((List.range d.NU).map fun j => Op.add (d.VARX + j) (d.NX + d.NU) d.NP fun b => h (d.NX + d.NU + b) (d.NX + j))

/-- Addition of a node Hessian by columns, continuous_ocp.hpp:2261-2298, and for the terminal cost on later calls 1866-1903 (with `k = 0`). -/
def hesCols (d : Dims) (k : ℕ) (h : ℕ → ℕ → K) : List (Op K) :=
  ((List.range d.NX).map fun j => Op.add (k * d.NX + j) 0 (d.NX + d.NU + d.NP) fun b => h b j) ++
  ((List.range d.NU).map fun j => Op.add (k * d.NU + d.VARX + j) 0 (d.NX + d.NU + d.NP) fun b => h b (d.NX + j)) ++
  ((List.range d.NP).flatMap fun j =>
    [Op.add (d.VARX + d.VARU + j) (k * d.NX) d.NX (fun b => h b (d.NX + d.NU + j)),
     Op.add (d.VARX + d.VARU + j) (d.VARX + k * d.NU) d.NU (fun b => h (d.NX + b) (d.NX + d.NU + j)),
     Op.add (d.VARX + d.VARU + j) (d.VARX + d.VARU) d.NP fun b => h (d.NX + d.NU + b) (d.NX + d.NU + j)])

/-! ### Cost -/

/-- State of the loop over the quadrature points: cost, gradient, matrix, `hes_pp`, `m_ad2_cost`. -/
abbrev HesState (d : Dims) (K : Type) := K × (ℕ → K) × Option (Csc K) × (ℕ → ℕ → K) × Dual d.M (Dual d.M K)

/-- The loop over the quadrature points, continuous_ocp.hpp:1400-1582 and 1701-1840; `visit s k hes` are the accesses to the matrix, the only
difference between the two. -/
def hesLoop (d : Dims) (A : Approx K) (cb : Cbs d K) (o : Obj d K) (var : ℕ → K) (visit : ℕ → ℕ → (ℕ → ℕ → K) → List (Op K))
    (H : Csc K) : HesState d K :=
  let ts := tScale d o
  loop d.S (fun s st => loop (d.N + 1) (fun k (st : HesState d K) =>
    let a := cb.lagAD2 (node d var (k + s * d.N)) (o.time (k + s * d.N)) st.2.2.2.2
    let hes : ℕ → ℕ → K := fun r i => ts * A.w k * hesOf a r i
    (st.1 + ts * A.w k * a.val.val, addNode d st.2.1 (k + s * d.N) (ts * A.w k) (derAt a.val), st.2.2.1.bind (runOps d.VAR (visit s k hes)),
      fun r j => st.2.2.2.1 r j + hes (d.NX + d.NU + r) (d.NX + d.NU + j), a)) st)
    ((0 : K), (fun _ => (0 : K)), some H, (fun _ _ => (0 : K)), clearVal o.ad2Cost)

/-- `_cost_grad_hess_sparse`, continuous_ocp.hpp:1384-1684. `none` stands for failing range assertions (`hes(r, j + NX + NP)` with `j < NP`,
1540; `hes(r + NX + NU, j + NU)` with `j < NU`, 1575; `var.segment<NX>(VARX_SIZE)(i)` with `i < NU`, 1595) and for the outcomes of the
sparse accesses. -/
def costHesFresh (d : Dims) (A : Approx K) (cb : Cbs d K) (o : Obj d K) (var : ℕ → K) (H : Csc K) : Option (K × (ℕ → K) × Csc K × Obj d K) :=
  if (0 < d.NX ∧ d.NU < d.NP) ∨ (0 < d.NP ∧ d.NX + d.NP < d.NU) then none else
  let s := hesLoop d A cb o var (fun s k h => if 0 < s ∧ k = 0 then hesAdd d (k + s * d.N) h else hesIns d (k + s * d.N) h) (H.reserve (hesNnz d))
  if 0 < d.NU ∧ (d.NX < d.NU ∨ d.VAR < d.VARX + d.NX) then none else
  let m := cb.mayerAD2 (node d var 0) (o.time 0) (zero2 d.M)
  (s.2.2.1.bind (runOps d.VAR (ppIns d s.2.2.2.1 ++ mayerAdd d (hesOf m)))).map fun H =>
    (s.1 + m.val.val, addNode d s.2.1 0 1 (derAt m.val), H, { o with ad2Cost := s.2.2.2.2 })

/-- `_cost_grad_hess_sparse_update`, continuous_ocp.hpp:1687-1905. -/
def costHesUpdate (d : Dims) (A : Approx K) (cb : Cbs d K) (o : Obj d K) (var : ℕ → K) (H : Csc K) : Option (K × (ℕ → K) × Csc K × Obj d K) :=
  let s := hesLoop d A cb o var (fun s k h => if 0 < s ∧ k = 0 then hesAdd d (k + s * d.N) h else hesPut d (k + s * d.N) h) H
  if 0 < d.NU ∧ (d.NX < d.NU ∨ d.VAR < d.VARX + d.NX) then none else
  let m := cb.mayerAD2 (node d var 0) (o.time 0) (zero2 d.M)
  (s.2.2.1.bind (runOps d.VAR (ppPut d s.2.2.2.1 ++ hesCols d 0 (hesOf m)))).map fun H =>
    (s.1 + m.val.val, addNode d s.2.1 0 1 (derAt m.val), H, { o with ad2Cost := s.2.2.2.2 })

/-- `cost_gradient_hessian`, sparse, continuous_ocp.hpp:1372-1381. `none` also if the matrix has entries, but not as many as expected: the
insertions then meet the old entries. -/
def costHesSparse (d : Dims) (A : Approx K) (cb : Cbs d K) (o : Obj d K) (var : ℕ → K) (H : Csc K) : Option (K × (ℕ → K) × Csc K × Obj d K) :=
  if H.nonZeros d.VAR ≠ sumNnz d (hesNnz d) then
    if H.nonZeros d.VAR ≠ 0 then none else costHesFresh d A cb o var H
  else costHesUpdate d A cb o var H

/-! ### Lagrangian -/

/-- `lag_hessian = cost_scale * lag_hessian`, continuous_ocp.hpp:2218-2219: the values are scaled. The matrix has no unused slots at this
point, so that the compression that Eigen performs on assignment moves nothing. -/
def scaleVals (a : K) (H : Csc K) : Csc K := { H with val := fun p => a * H.val p }

/-- The Hessian part of the sparse `lagrangian_gradient_hessian`, continuous_ocp.hpp:2217-2300. -/
def addConstraintHessianSparse (d : Dims) (cb : Cbs d K) (o : Obj d K) (var lam : ℕ → K) (xd0 g0 : ℕ → Dual d.M (Dual d.M K)) (H0 : Csc K) :
    Option (Csc K) :=
  (loop d.NN (fun k (st : (ℕ → Dual d.M (Dual d.M K)) × (ℕ → Dual d.M (Dual d.M K)) × Option (Csc K)) =>
    let xd := cb.dynAD2 (node d var k) (o.time k) st.1
    let g := cb.ineqAD2 (node d var k) (o.time k) st.2.1
    let hes : ℕ → ℕ → K := loop d.NX (fun n h r i => h r i + -lam (n + k * d.NX) * tScale d o * hesOf (xd n) r i) fun _ _ => 0
    let hes := loop d.NG (fun n h r i => h r i + lam (n + k * d.NG + d.NEQ) * hesOf (g n) r i) hes
    (xd, g, st.2.2.bind (runOps d.VAR (hesCols d k hes)))) (xd0, g0, some H0)).2.2

variable [DecidableEq K]

/-- Product of the transposed matrix, with `n` rows, and a vector, as iterated over stored entries, continuous_ocp.hpp:2014. -/
def mulT (J : Csc K) (lam : ℕ → K) (c : ℕ) : K := ((J.col c).map fun e => e.2 * lam e.1).sum

/-- `lagrangian_gradient`, sparse, continuous_ocp.hpp:1980-2017: cost, Lagrangian gradient, cost gradient, constraints, matrices, object. -/
def lagrangianGradientSparse (d : Dims) (A : Approx K) (cb : Cbs d K) (o : Obj d K) (junk jac0 : ℕ → ℕ → K) (var lam c0 : ℕ → K) (m : SpJac K) :
    Option (K × (ℕ → K) × (ℕ → K) × (ℕ → K) × SpJac K × Obj d K) := do
  let cg := costGradient d A cb o var
  let cl ← constraintsLinSparse d A cb cg.2.2 junk jac0 var c0 m
  some (cg.1, fun c => mulT cl.2.1.J lam c + cg.2.1 c + lam (d.NEQ + d.NINEQ + c), cg.2.1, cl.1, cl.2.1, cl.2.2)

/-- `lagrangian_gradient_hessian`, sparse, continuous_ocp.hpp:2176-2301: cost, Lagrangian gradient, Lagrangian Hessian, matrices, object. -/
def lagrangianGradientHessianSparse (d : Dims) (A : Approx K) (cb : Cbs d K) (o : Obj d K) (junk jac0 : ℕ → ℕ → K) (var lam c0 : ℕ → K)
    (m : SpJac K) (xd0 g0 : ℕ → Dual d.M (Dual d.M K)) (costScale : K) (H : Csc K) :
    Option (K × (ℕ → K) × Csc K × SpJac K × Obj d K) := do
  let cg ← costHesSparse d A cb o var H
  let cl ← constraintsLinSparse d A cb cg.2.2.2 junk jac0 var c0 m
  let H' ← addConstraintHessianSparse d cb cl.2.2 var lam xd0 g0 (if costScale = 1 then cg.2.2.1 else scaleVals costScale cg.2.2.1)
  some (cg.1, fun c => mulT cl.2.1.J lam c + cg.2.1 c + lam (d.NEQ + d.NINEQ + c), H', cl.2.1, cl.2.2)

/-! ### Quasi-Newton update -/

/-- `hessian * s`, continuous_ocp.hpp:2313. -/
def mulVec (d : Dims) (H : Csc K) (s : ℕ → K) (r : ℕ) : K :=
  ∑ c ∈ Finset.range d.VAR, ((H.col c).map fun e => if e.1 = r then e.2 * s c else 0).sum

/-- `a.dot(b)`, continuous_ocp.hpp:2314. -/
def dotVar (d : Dims) (a b : ℕ → K) : K := ∑ c ∈ Finset.range d.VAR, a c * b c

/-- The accesses of `hessian_update_impl`, continuous_ocp.hpp:2353-2378 for each node and 2408-2429 for the parameters; `B i j` is the entry
of the two rank-one terms, `hes_xx`, `hes_ux`, `hes_uu`, `hes_ap`, `hes_pp` being blocks of it and `hes_xu` the transpose of `hes_ux` (2351). -/
def bfgsNode (d : Dims) (k : ℕ) (B : ℕ → ℕ → K) : List (Op K) :=
  ((List.range d.NX).flatMap fun j =>
    [Op.add (k * d.NX + j) 0 d.NX (fun b => B (k * d.NX + b) (k * d.NX + j)),
     Op.add (k * d.NX + j) d.NX d.NU fun b => B (k * d.NU + d.VARX + b) (k * d.NX + j)]) ++
  ((List.range d.NU).flatMap fun j =>
    [Op.add (k * d.NU + d.VARX + j) 0 d.NX (fun b => B (k * d.NU + d.VARX + j) (k * d.NX + b)),
     Op.add (k * d.NU + d.VARX + j) d.NX d.NU fun b => B (k * d.NU + d.VARX + b) (k * d.NU + d.VARX + j)])

/-- The parameter part, continuous_ocp.hpp:2408-2429. -/
def bfgsPar (d : Dims) (B : ℕ → ℕ → K) : List (Op K) :=
  ((List.range d.NP).flatMap fun j =>
    [Op.add (d.VARX + d.VARU + j) 0 (d.VARX + d.VARU) (fun b => B b (d.VARX + d.VARU + j)),
     Op.add (d.VARX + d.VARU + j) (d.VARX + d.VARU) d.NP fun b => B (d.VARX + d.VARU + b) (d.VARX + d.VARU + j)]) ++
  ((List.range (d.VARX + d.VARU)).map fun j => Op.add j (d.NX + d.NU) d.NP fun b => B j (d.VARX + d.VARU + b))

section Order
variable [LinearOrder K]

/-- The damped pair `r`, `s·r`, continuous_ocp.hpp:2334-2344 (and 2392-2401); `none` for a zero divisor. -/
def bfgsPair (d : Dims) (v s y : ℕ → K) : Option ((ℕ → K) × K) :=
  let scaling := dotVar d s v
  let sy := dotVar d s y
  if 2 / 10 * scaling ≤ sy then some (y, sy)
  else if scaling - sy = 0 then none
  else
    let theta := 8 / 10 * scaling / (scaling - sy)
    let r : ℕ → K := fun i => theta * y i + (1 - theta) * v i
    some (r, dotVar d s r)

/-- `hessian_update_impl`, continuous_ocp.hpp:2304-2431. Division by zero is the outcome `none`. -/
def hessianUpdate (d : Dims) (H : Csc K) (s y : ℕ → K) : Option (Csc K) :=
  let v := mulVec d H s
  let scaling := dotVar d s v
  if scaling = 0 then none else
  (bfgsPair d v s y).bind fun p => if p.2 = 0 then none else
    let B : ℕ → ℕ → K := fun i j => -(1 / scaling) * v i * v j + 1 / p.2 * p.1 i * p.1 j
    (loop d.NN (fun k H => H.bind (runOps d.VAR (bfgsNode d k B))) (some H)).bind fun H =>
      if 0 < d.NP then runOps d.VAR (bfgsPar d B) H else some H

end Order

end PolyMPC.Ocp
