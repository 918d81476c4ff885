import Verif.Model.Sqp
import Verif.Model.Rounding

/-!
# SQP solver with rounding errors

The same code as `Verif.Model.Sqp`, with the operations of an arbitrary arithmetic in place of those of a field. With
`Arith.exact` it is the model of that file (`solve_exact` in `Verif.Props.SqpRounded`). Settings, data members and
parameters are those of that file: the functions of the problem are the ones that are computed, and the QP solver, the
preconditioner, the Hessian update and the regularisation remain parameters. The literals in the code are 0 and 1.
-/

namespace PolyMPC.SqpR
open Matrix PolyMPC.Spec PolyMPC.Sqp PolyMPC.Rounding

universe u

variable {n me mi : ℕ}

/-- `sum()` of a vector: a matrix-vector product with ones, as the products are exact. -/
def total (ar : Arith) {k : ℕ} (v : Fin k → ℝ) : ℝ := ar.dot k (fun _ => 1) v

/-- `constraints_violation_impl`, sqp_base.hpp:421-444. `eps` is `EPSILON`. -/
noncomputable def constraintsViolation (ar : Arith) (eps : ℝ) (prob : Problem ℝ n me mi) (bd : Bounds ℝ n mi) (x : Fin n → ℝ) : ℝ :=
  ar.add (ar.add (ar.add (ar.add (ar.add eps (total ar fun i => |prob.eq x i|))
    (total ar fun i => max (ar.sub (bd.lbg i) (prob.ineq x i)) 0)) (total ar fun i => max (ar.sub (prob.ineq x i) (bd.ubg i)) 0))
    (total ar fun i => max (ar.sub (bd.lbx i) (x i)) 0)) (total ar fun i => max (ar.sub (x i) (bd.ubx i)) 0)

/-- `max_constraints_violation_impl`, sqp_base.hpp:446-474. -/
noncomputable def maxConstraintsViolation (ar : Arith) [NeZero n] (prob : Problem ℝ n me mi) (bd : Bounds ℝ n mi) (x : Fin n → ℝ) : ℝ :=
  let c0 : ℝ := if 0 < me then infNorm (prob.eq x) else 0
  let c1 : ℝ :=
    if h : 0 < mi then
      haveI : NeZero mi := ⟨h.ne'⟩
      max (max c0 (maxCoeff fun i => ar.sub (bd.lbg i) (prob.ineq x i))) (maxCoeff fun i => ar.sub (prob.ineq x i) (bd.ubg i))
    else c0
  max (max c1 (maxCoeff fun i => ar.sub (bd.lbx i) (x i))) (maxCoeff fun i => ar.sub (x i) (bd.ubx i))

/-- The loop of the line search, sqp_base.hpp:403-416. The trial point is computed in two statements, 405 and 406, and the
step in one, 626 and 677. -/
noncomputable def lineSearchLoop (ar : Arith) (tau eta phi Dphi mu : ℝ) (cost viol : (Fin n → ℝ) → ℝ) (x p : Fin n → ℝ) :
    ℕ → ℝ → ℝ → ℝ × ℝ
  | 0, alpha, logged => (alpha, logged)
  | fuel + 1, alpha, _ =>
    let xStep := fun i => ar.add (ar.mul alpha (p i)) (x i)
    let costStep := cost xStep
    let phiStep := ar.mulAdd mu (viol xStep) costStep
    if phiStep ≤ ar.mulAdd (ar.mul alpha eta) Dphi phi then (alpha, costStep)
    else lineSearchLoop ar tau eta phi Dphi mu cost viol x p fuel (ar.mul tau alpha) costStep

/-- `step_size_selection_impl`, sqp_base.hpp:378-419. -/
noncomputable def lineSearch (ar : Arith) (eps : ℝ) (cfg : Settings ℝ) (prob : Problem ℝ n me mi) (bd : Bounds ℝ n mi) (h : Fin n → ℝ)
    (lamK : Dual ℝ n me mi) (x p : Fin n → ℝ) (logged : ℝ) : ℝ × ℝ :=
  let constrL1 := constraintsViolation ar eps prob bd x
  let mu := infNorm lamK
  let phi := ar.mulAdd mu constrL1 (prob.cost x)
  let Dphi := ar.mulAdd (-mu) constrL1 (ar.dot n h p)
  lineSearchLoop ar cfg.tau cfg.eta phi Dphi mu prob.cost (constraintsViolation ar eps prob bd) x p
    (cfg.lineSearchMaxIter - 1).toNat 1 logged

variable {prec : Precond ℝ n (me + mi)} {qps : QPSolver ℝ n (me + mi)}

/-- The solver without overrides of the step size selection; sqp_base.hpp:378-419. -/
noncomputable def searchEnv (ar : Arith) (eps : ℝ) (env : Env ℝ n me mi prec qps) : Env ℝ n me mi prec qps :=
  { env with stepSize := lineSearch ar eps env.cfg env.prob env.bd }

/-- The QP data formed from a linearisation, sqp_base.hpp:588-593 and 652-657. -/
def formQP (ar : Arith) (bd : Bounds ℝ n mi) (x : Fin n → ℝ) (H : Matrix (Fin n) (Fin n) ℝ) (h : Fin n → ℝ)
    (A : Matrix (Fin (me + mi)) (Fin n) ℝ) (b : Fin (me + mi) → ℝ) : QP ℝ n (me + mi) where
  H := H
  h := h
  A := A
  Alb := Fin.addCases (fun i => -b (Fin.castAdd mi i)) (fun i => ar.add (-b (Fin.natAdd me i)) (bd.lbg i))
  Aub := Fin.addCases (fun i => -b (Fin.castAdd mi i)) (fun i => ar.add (-b (Fin.natAdd me i)) (bd.ubg i))
  xlb := fun i => ar.sub (bd.lbx i) (x i)
  xub := fun i => ar.sub (bd.ubx i) (x i)

/-- `linearisation`, sqp_base.hpp:308-330 with 583, followed by 588-593. -/
def linearise (ar : Arith) (env : Env ℝ n me mi prec qps) (st : State ℝ n me mi prec qps) : State ℝ n me mi prec qps :=
  { st with
    lagGradient := env.prob.lagGrad st.x st.lam
    qp := formQP ar env.bd st.x (env.regularise (env.prob.lagHess st.x st.lam)) (env.prob.costGrad st.x)
      (env.prob.jac st.x) (env.prob.constr st.x) }

/-- `update_linearisation`, sqp_base.hpp:489-521 with 649, followed by 652-657. -/
def updateLinearisation (ar : Arith) (env : Env ℝ n me mi prec qps) (st : State ℝ n me mi prec qps) :
    Option (State ℝ n me mi prec qps) :=
  let lagGrad := env.prob.lagGrad st.x st.lam
  (env.hessUpdate st.qp.H st.stepPrev (fun i => ar.sub (lagGrad i) (st.lagGradient i))).map fun H =>
    { st with
      lagGradient := lagGrad
      qp := formQP ar env.bd st.x H (env.prob.costGrad st.x) (env.prob.jac st.x) (env.prob.constr st.x) }

/-- Preconditioning, QP solution and step, sqp_base.hpp:605-632 and 663-683, with `solve_qp` (lines 532-565). -/
noncomputable def qpStep (ar : Arith) (env : Env ℝ n me mi prec qps) (st : State ℝ n me mi prec qps) : Option (State ℝ n me mi prec qps) :=
  (prec.compute st.precMem st.qp).map fun (mem, scaled) =>
    let (qpMem, p0, l0, it) := qps.solve st.qpMem scaled
    let (p, lamK) := prec.unscalePair mem (p0, l0)
    let qp := prec.unscale mem scaled
    let pLam := fun i => ar.sub (lamK i) (st.lam i)
    let (alpha, logged) := env.stepSize qp.h lamK st.x p st.cost
    { st with
      precMem := mem
      qpMem := qpMem
      qp := qp
      lamK := lamK
      cost := logged
      qpIter := st.qpIter + it
      x := fun i => ar.mulAdd alpha (p i) (st.x i)
      lam := fun i => ar.mulAdd alpha (pLam i) (st.lam i)
      stepPrev := fun i => ar.mul alpha (p i)
      primalNorm := ar.mul alpha (infNorm p)
      dualNorm := ar.mul alpha (infNorm pLam) }

/-- `termination_criteria_impl`, sqp_base.hpp:523-529: sets `m_max_violation`. The value returned is `Sqp.terminated`. -/
noncomputable def measure (ar : Arith) [NeZero n] (env : Env ℝ n me mi prec qps) (st : State ℝ n me mi prec qps) : State ℝ n me mi prec qps :=
  { st with maxViolation := maxConstraintsViolation ar env.prob env.bd st.x }

/-- The main loop, sqp_base.hpp:639-692. -/
noncomputable def loop (ar : Arith) [NeZero n] (env : Env ℝ n me mi prec qps) : ℕ → State ℝ n me mi prec qps → Option (State ℝ n me mi prec qps)
  | 0, st => some st
  | fuel + 1, st =>
    if st.iter < env.cfg.maxIter then
      (updateLinearisation ar env { st with iter := st.iter + 1 }).bind fun st1 =>
        (qpStep ar env st1).bind fun st2 =>
          let st3 := measure ar env (callback env st2)
          if terminated env st3 then some { st3 with status := .SOLVED }
          else loop ar env fuel st3
    else some st

/-- `solve`, sqp_base.hpp:567-696. -/
noncomputable def solve (ar : Arith) [NeZero n] (env : Env ℝ n me mi prec qps) (st : State ℝ n me mi prec qps) :
    Option (State ℝ n me mi prec qps) :=
  let st0 := { st with status := .MAX_ITER_EXCEEDED, qpIter := 0, iter := 1 }
  (qpStep ar env (linearise ar env st0)).bind fun st1 =>
    let st2 := measure ar env st1
    if terminated env st2 then some { st2 with status := .SOLVED }
    else loop ar env (env.cfg.maxIter - 1).toNat st2

end PolyMPC.SqpR
