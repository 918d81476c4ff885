import Verif.Model.MpcSqp
import Verif.Model.OcpSparseHess
import Verif.Model.AdmmSparse

/-!
# The SQP solver with sparse matrices

`SQPBase` (src/solvers/sqp_base.hpp) for a problem with `MATRIXFMT == SPARSE`: the linearisation and its update come from the sparse branches
of `ContinuousOCP`, the Hessian update is `hessian_update_impl` of the problem (set in the derived class, as in tests/control/dense_sparse_compare.cpp:101-107;
the default `BFGS_update` takes dense matrices), the QP solver is the sparse `boxADMM`. Everything else is the code of `Model/Sqp.lean`.

The members `m_h, m_al, m_au, m_lx, m_ux` are those of `s.qp`; its matrices hold what the sparse members `m_H` and `m_A` represent. `s.qpMem` is the part of the
QP solver that does not depend on the format. The preconditioner is the default `IdentityPreconditioner` (sqp_base.hpp:68).
-/

namespace PolyMPC.SqpSparse
open Ocp MpcSqp Sparse Sparse.Csc Spec AdmmSparse

variable {d : Dims}

/-- `boxADMM` (box_admm.hpp) as the QP solver of the dense `SQPBase`, called without a guess: `solve(H, h, A, al, au, lx, ux)` starts from zero (qp_base.hpp:161-166,
box_admm.hpp:79-84). The call has no result if the interval of the step size adaptation is zero; the theorems exclude this. -/
noncomputable def boxQps {N M : ℕ} (both : Bool) (lin : BoxAdmm.KktMat ℝ N M → (BoxAdmm.KktIdx N M → ℝ) → (BoxAdmm.KktIdx N M → ℝ)) (sq : ℝ → ℝ)
    (cfg : QPBase.Settings ℝ) : Sqp.QPSolver ℝ N M where
  Mem := BoxAdmm.State ℝ N M
  solve mem qp := match BoxAdmm.solve both lin sq cfg qp 0 0 mem with
    | some s => (s, s.x, s.y, s.info.iter)
    | none => (mem, mem.x, mem.y, mem.info.iter)

/-- The QP solver's decomposition (`both`: it reads both triangles), square root and settings. -/
structure QpConf (d : Dims) where
  both : Bool
  lin : BoxAdmm.KktMat ℝ d.VAR (d.NEQ + d.NINEQ) → (BoxAdmm.KktIdx d.VAR (d.NEQ + d.NINEQ) → ℝ) → (BoxAdmm.KktIdx d.VAR (d.NEQ + d.NINEQ) → ℝ)
  sq : ℝ → ℝ
  cfg : QPBase.Settings ℝ

/-- The QP solver with dense matrices. -/
noncomputable abbrev QpConf.qps (q : QpConf d) : Sqp.QPSolver ℝ d.VAR (d.NEQ + d.NINEQ) := boxQps q.both q.lin q.sq q.cfg

/-- The members of the dense `SQPBase` with that QP solver. -/
abbrev QpConf.Base (q : QpConf d) := Sqp.State ℝ d.VAR d.NEQ d.NINEQ (Sqp.identityPrecond ℝ d.VAR (d.NEQ + d.NINEQ)) q.qps

/-- What is fixed during a run: the problem's callbacks (with its static parameters) and uninitialised storage, bounds, settings, the sparse
regularisation and the machine epsilon. -/
structure Conf (d : Dims) where
  A : Approx ℝ
  cb : Cbs d ℝ
  sc : Scratch d
  /-- local Jacobian of the sparse linearisation of the path constraints, continuous_ocp.hpp:1095-1130 -/
  jac0 : ℕ → ℕ → ℝ
  bd : Sqp.Bounds ℝ d.VAR d.NINEQ
  cfg : Sqp.Settings ℝ
  /-- `hessian_regularisation_sparse_impl`, by default nothing (sqp_base.hpp:306); `none`: a failed assertion -/
  regS : Csc ℝ → Option (Csc ℝ)
  eps : ℝ

/-- The members of the sparse `SQPBase`, sqp_base.hpp:129-152, with the problem (its object and its Jacobian members) and the QP solver. -/
structure State (q : QpConf d) where
  s : q.Base
  /-- `m_H` -/
  H : Csc ℝ
  /-- `m_A`, and the members of the problem for the two parts of it -/
  jac : SpJac ℝ
  /-- the problem -/
  o : Obj d ℝ
  /-- `m_K` of the QP solver -/
  mK : Csc ℝ
  /-- `reuse_pattern` in the settings of the QP solver -/
  reuse : Bool

variable {q : QpConf d}

/-- The parts of the solver that do not depend on the format: the values of cost and constraints (one version in continuous_ocp.hpp:739, 770, 1182),
bounds, settings and line search (sqp_base.hpp:378-419). The Hessian update and the regularisation of this record are not used. -/
noncomputable def Conf.values (c : Conf d) (q : QpConf d) (o : Obj d ℝ) :
    Sqp.Env ℝ d.VAR d.NEQ d.NINEQ (Sqp.identityPrecond ℝ d.VAR (d.NEQ + d.NINEQ)) q.qps where
  cfg := c.cfg
  prob := problem c.A c.cb o c.sc
  bd := c.bd
  hessUpdate _ _ _ := none
  regularise H := H
  stepSize := Sqp.lineSearch c.eps c.cfg (problem c.A c.cb o c.sc) c.bd

/-- All outputs of the sparse `lagrangian_gradient_hessian`, continuous_ocp.hpp:2176-2301: Lagrangian gradient, Hessian, cost gradient, constraints, Jacobian
members, object. `lagrangianGradientHessianSparse` has part of them. -/
noncomputable def lagHesOutputs (c : Conf d) (st : State q) : Option ((ℕ → ℝ) × Csc ℝ × (ℕ → ℝ) × (ℕ → ℝ) × SpJac ℝ × Obj d ℝ) :=
  (costHesSparse d c.A c.cb st.o (ext st.s.x) st.H).bind fun cg =>
  (constraintsLinSparse d c.A c.cb cg.2.2.2 c.sc.junk c.jac0 (ext st.s.x) c.sc.c0 st.jac).bind fun cl =>
  (addConstraintHessianSparse d c.cb cl.2.2 (ext st.s.x) (ofDual st.s.lam) c.sc.xd0 c.sc.g0 cg.2.2.1).map fun H' =>
  (fun i => mulT cl.2.1.J (ofDual st.s.lam) i + cg.2.1 i + ofDual st.s.lam (d.NEQ + d.NINEQ + i), H', cg.2.1, cl.1, cl.2.1, cl.2.2)

/-- The matrix of the constraints as a dense one. -/
def jacMat (d : Dims) (J : Csc ℝ) : Matrix (Fin (d.NEQ + d.NINEQ)) (Fin d.VAR) ℝ := Matrix.of fun r c => J.coeff r c

/-- The Hessian as a dense matrix. -/
def hesMat (d : Dims) (H : Csc ℝ) : Matrix (Fin d.VAR) (Fin d.VAR) ℝ := Matrix.of fun r c => H.coeff r c

/-- `linearisation_sparse_impl`, sqp_base.hpp:320-330 with 583, followed by 588-593. -/
noncomputable def linearise (c : Conf d) (st : State q) : Option (State q) :=
  (lagHesOutputs c st).bind fun r => (c.regS r.2.1).map fun H =>
    { st with
      s := { st.s with
        lagGradient := fun i => r.1 i
        qp := Sqp.formQP c.bd st.s.x (hesMat d H) (fun i => r.2.2.1 i) (jacMat d r.2.2.2.2.1.J) fun i => r.2.2.2.1 i }
      H := H
      jac := r.2.2.2.2.1
      o := r.2.2.2.2.2 }

/-- `update_linearisation_sparse_impl`, sqp_base.hpp:506-521 with 649, followed by 652-657. The Hessian update is that of continuous_ocp.hpp:2304-2431. -/
noncomputable def updateLinearisation (c : Conf d) (st : State q) : Option (State q) :=
  (lagrangianGradientSparse d c.A c.cb st.o c.sc.junk c.jac0 (ext st.s.x) (ofDual st.s.lam) c.sc.c0 st.jac).bind fun r =>
  (hessianUpdate d st.H (ext st.s.stepPrev) fun i => r.2.1 i - ext st.s.lagGradient i).map fun H =>
    { st with
      s := { st.s with
        lagGradient := fun i => r.2.1 i
        qp := Sqp.formQP c.bd st.s.x (hesMat d H) (fun i => r.2.2.1 i) (jacMat d r.2.2.2.2.1.J) fun i => r.2.2.2.1 i }
      H := H
      jac := r.2.2.2.2.1
      o := r.2.2.2.2.2 }

/-- The QP as the QP solver gets it. -/
def sparseQP (st : State q) : SparseQP ℝ d.VAR (d.NEQ + d.NINEQ) :=
  { H := st.H, h := st.s.qp.h, A := st.jac.J, Alb := st.s.qp.Alb, Aub := st.s.qp.Aub, xlb := st.s.qp.xlb, xub := st.s.qp.xub }

/-- QP solution and step, sqp_base.hpp:605-632 and 663-683, with `solve_qp` (lines 532-565). -/
noncomputable def qpStep (c : Conf d) (st : State q) : Option (State q) :=
  (boxSolve st.reuse q.both q.lin q.sq q.cfg (sparseQP st) 0 0 ⟨st.s.qpMem, st.mK⟩).map fun b =>
    let p := b.st.x
    let lamK := b.st.y
    let pLam := lamK - st.s.lam
    let a := (c.values q st.o).stepSize st.s.qp.h lamK st.s.x p st.s.cost
    { st with
      s := { st.s with
        qpMem := b.st
        lamK := lamK
        cost := a.2
        qpIter := st.s.qpIter + b.st.info.iter
        x := fun i => st.s.x i + a.1 * p i
        lam := fun i => st.s.lam i + a.1 * pLam i
        stepPrev := fun i => a.1 * p i
        primalNorm := a.1 * infNorm p
        dualNorm := a.1 * infNorm pLam }
      mK := b.mK }

/-- The main loop, sqp_base.hpp:639-692. -/
noncomputable def loop [NeZero d.VAR] (c : Conf d) : ℕ → State q → Option (State q)
  | 0, st => some st
  | fuel + 1, st =>
    if st.s.iter < c.cfg.maxIter then
      (updateLinearisation c { st with s := { st.s with iter := st.s.iter + 1 } }).bind fun st1 =>
        (qpStep c st1).bind fun st2 =>
          let s3 := Sqp.measure (c.values q st2.o) (Sqp.callback (c.values q st2.o) st2.s)
          if Sqp.terminated (c.values q st2.o) s3 then some { st2 with s := { s3 with status := .SOLVED } }
          else loop c fuel { st2 with s := s3 }
    else some st

/-- `solve`, sqp_base.hpp:567-696, with `reuse_pattern = true` after the first QP (614). -/
noncomputable def solve [NeZero d.VAR] (c : Conf d) (st : State q) : Option (State q) :=
  (linearise c { st with s := { st.s with status := .MAX_ITER_EXCEEDED, qpIter := 0, iter := 1 } }).bind fun st0 =>
  (qpStep c st0).bind fun st1 =>
    let st1 := { st1 with reuse := true }
    let s2 := Sqp.measure (c.values q st1.o) st1.s
    if Sqp.terminated (c.values q st1.o) s2 then some { st1 with s := { s2 with status := .SOLVED } }
    else loop c (c.cfg.maxIter - 1).toNat { st1 with s := s2 }

/-- `solve(x_guess, lam_guess)`, sqp_base.hpp:369-374. -/
noncomputable def solveFrom [NeZero d.VAR] (c : Conf d) (st : State q) (xg : Fin d.VAR → ℝ) (lg : Sqp.Dual ℝ d.VAR d.NEQ d.NINEQ) : Option (State q) :=
  solve c { st with s := { st.s with x := xg, lam := lg } }

end PolyMPC.SqpSparse
