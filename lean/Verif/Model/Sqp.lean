import Verif.Spec.QP
import Verif.Model.Ruiz
import Verif.Model.QuasiNewton
import Mathlib.Data.Fin.Tuple.Basic

/-!
# SQP solver

Model of `/repo/src/solvers/sqp_base.hpp`, class `SQPBase`.

* The scalar type is an ordered field; bounds are elements of it (infinite bounds: `Model/SqpInf`).
* Constraint rows are indexed by `Fin (me + mi)`: first the equalities, then the inequalities (`head<NUM_EQ>`,
  `tail<NUM_INEQ>`). The dual vector is indexed by `Fin (me + mi) ⊕ Fin n`.
* The NLP, the QP solver, the preconditioner, the Hessian update, the regularisation and the step size selection are
  parameters, as in the C++ code, where they are template arguments or may be overridden in the derived class. `none`
  is an undefined operation (division by zero) in one of them.
* The iteration callback receives the solver object; here the primal iterates handed to it are recorded.
* The settings of the QP solver written in lines 613-615 (`reuse_pattern`, `warm_start`) are part of the QP solver's state.
* Overflow of counters is not modelled.
-/

namespace PolyMPC.Sqp
open Matrix PolyMPC.Spec

universe u

variable {K : Type u} [Field K] [LinearOrder K] [IsStrictOrderedRing K] {n me mi : ℕ}

/-- Dual vectors (`nlp_dual_t`). -/
abbrev Dual (K : Type*) (n me mi : ℕ) := Fin (me + mi) ⊕ Fin n → K

/-- `sqp_settings_t`, sqp_base.hpp:24-33. -/
structure Settings (K : Type*) where
  tau : K
  eta : K
  rho : K
  epsPrim : K
  epsDual : K
  maxIter : ℤ
  lineSearchMaxIter : ℤ
  /-- `iteration_callback != nullptr` -/
  callback : Bool

/-- Default settings, sqp_base.hpp:26-33. -/
def Settings.default : Settings K where
  tau := 1 / 2
  eta := 1 / 4
  rho := 1 / 2
  epsPrim := 1 / 1000
  epsDual := 1 / 1000
  maxIter := 100
  lineSearchMaxIter := 100
  callback := false

/-- `sqp_settings_t::validate`, sqp_base.hpp:35-46. -/
def Settings.validate (s : Settings K) : Bool :=
  decide (0 < s.tau) && decide (s.tau < 1) && decide (0 < s.eta) && decide (s.eta < 1) && decide (0 < s.rho) &&
    decide (s.rho < 1) && decide (s.epsPrim > 0) && decide (s.epsDual > 0) && decide (s.maxIter > 0) &&
    decide (s.lineSearchMaxIter > 0)

/-- `sqp_status_t`, sqp_base.hpp:49-55. -/
inductive Status where
  | SOLVED | MAX_ITER_EXCEEDED | INVALID_SETTINGS
  deriving DecidableEq, Repr

/-- What the solver calls on `problem` (class `ProblemBase`, nlproblem.hpp) for a fixed parameter vector `m_p`. -/
structure Problem (K : Type*) (n me mi : ℕ) where
  /-- `cost` -/
  cost : (Fin n → K) → K
  /-- `equalities` -/
  eq : (Fin n → K) → Fin me → K
  /-- `inequalities` -/
  ineq : (Fin n → K) → Fin mi → K
  /-- the outputs `cost_gradient` of `lagrangian_gradient(_hessian)` -/
  costGrad : (Fin n → K) → Fin n → K
  /-- the outputs `g` (constraint values) of `lagrangian_gradient(_hessian)` -/
  constr : (Fin n → K) → Fin (me + mi) → K
  /-- the outputs `jac_g` of `lagrangian_gradient(_hessian)` -/
  jac : (Fin n → K) → Matrix (Fin (me + mi)) (Fin n) K
  /-- the outputs `lag_gradient` of `lagrangian_gradient(_hessian)` -/
  lagGrad : (Fin n → K) → Dual K n me mi → Fin n → K
  /-- the output `lag_hessian` of `lagrangian_gradient_hessian` -/
  lagHess : (Fin n → K) → Dual K n me mi → Matrix (Fin n) (Fin n) K

/-- User bounds, sqp_base.hpp:139 and 141. -/
structure Bounds (K : Type*) (n mi : ℕ) where
  lbx : Fin n → K
  ubx : Fin n → K
  lbg : Fin mi → K
  ubg : Fin mi → K

/-- The operations of a preconditioner used by the solver, sqp_base.hpp:605-611 and 663-667. -/
structure Precond (K : Type u) (n m : ℕ) where
  /-- the type of the preconditioner's data members -/
  Mem : Type u
  compute : Mem → QP K n m → Option (Mem × QP K n m)
  unscalePair : Mem → (Fin n → K) × (Fin m ⊕ Fin n → K) → (Fin n → K) × (Fin m ⊕ Fin n → K)
  unscale : Mem → QP K n m → QP K n m

/-- `IdentityPreconditioner`, qp_preconditioners.hpp:29-111. -/
def identityPrecond (K : Type u) (n m : ℕ) : Precond K n m where
  Mem := PUnit
  compute u qp := some (u, qp)
  unscalePair _ xy := xy
  unscale _ qp := qp

/-- `RuizEquilibration`, qp_preconditioners.hpp:115-550 (`Model/Ruiz.lean`). -/
def ruizPrecond {n m : ℕ} [NeZero n] [NeZero m] (var : Ruiz.Variant K n m) (sq : K → K) : Precond K n m where
  Mem := Ruiz.State K n m
  compute := Ruiz.compute var sq
  unscalePair := Ruiz.unscalePair
  unscale := Ruiz.unscale

/-- The QP solver object: its state, and `solve(H, h, A, al, au, lx, ux)`, which returns the primal and dual solution and
the iteration count (sqp_base.hpp:550, 556, 558-559). -/
structure QPSolver (K : Type u) (n m : ℕ) where
  Mem : Type u
  solve : Mem → QP K n m → Mem × (Fin n → K) × (Fin m ⊕ Fin n → K) × ℤ

/-- Data members of `SQPBase` that `solve` reads or writes, sqp_base.hpp:129-152. `qp` stands for `m_H, m_h, m_A, m_al,
m_au, m_lx, m_ux`. -/
structure State (K : Type u) (n me mi : ℕ) (prec : Precond K n (me + mi)) (qps : QPSolver K n (me + mi)) where
  x : Fin n → K
  lam : Dual K n me mi
  lamK : Dual K n me mi
  qp : QP K n (me + mi)
  cost : K
  iter : ℤ
  qpIter : ℤ
  status : Status
  lagGradient : Fin n → K
  stepPrev : Fin n → K
  primalNorm : K
  dualNorm : K
  maxViolation : K
  precMem : prec.Mem
  qpMem : qps.Mem
  /-- primal iterates seen by the iteration callback, oldest first -/
  callbacks : List (Fin n → K)

/-- `constraints_violation_impl`, sqp_base.hpp:421-444. `eps` is `EPSILON`. -/
def constraintsViolation (eps : K) (prob : Problem K n me mi) (bd : Bounds K n mi) (x : Fin n → K) : K :=
  eps + oneNorm (prob.eq x) +
    (∑ i, max (bd.lbg i - prob.ineq x i) 0) + (∑ i, max (prob.ineq x i - bd.ubg i) 0) +
    (∑ i, max (bd.lbx i - x i) 0) + (∑ i, max (x i - bd.ubx i) 0)

/-- `maxCoeff()`, sqp_base.hpp:465-471; Eigen requires a nonempty vector. -/
def maxCoeff {k : ℕ} [NeZero k] (v : Fin k → K) : K := Finset.univ.sup' Finset.univ_nonempty v

/-- `max_constraints_violation_impl`, sqp_base.hpp:446-474. -/
def maxConstraintsViolation [NeZero n] (prob : Problem K n me mi) (bd : Bounds K n mi) (x : Fin n → K) : K :=
  let c0 : K := if 0 < me then infNorm (prob.eq x) else 0
  let c1 : K :=
    if h : 0 < mi then
      haveI : NeZero mi := ⟨h.ne'⟩
      max (max c0 (maxCoeff fun i => bd.lbg i - prob.ineq x i)) (maxCoeff fun i => prob.ineq x i - bd.ubg i)
    else c0
  max (max c1 (maxCoeff fun i => bd.lbx i - x i)) (maxCoeff fun i => x i - bd.ubx i)

/-- The loop of the line search, sqp_base.hpp:403-416. `fuel` is `line_search_max_iter - i`. Returns the step size and the
last cost logged in `m_cost`. -/
def lineSearchLoop (tau eta phi Dphi mu : K) (cost viol : (Fin n → K) → K) (x p : Fin n → K) :
    ℕ → K → K → K × K
  | 0, alpha, logged => (alpha, logged)
  | fuel + 1, alpha, _ =>
    let xStep := fun i => alpha * p i + x i
    let costStep := cost xStep
    let phiStep := costStep + mu * viol xStep
    if phiStep ≤ phi + alpha * eta * Dphi then (alpha, costStep)
    else lineSearchLoop tau eta phi Dphi mu cost viol x p fuel (tau * alpha) costStep

/-- `step_size_selection_impl`, sqp_base.hpp:378-419. The loop runs for `i = 1, …, line_search_max_iter - 1`. -/
def lineSearch (eps : K) (cfg : Settings K) (prob : Problem K n me mi) (bd : Bounds K n mi) (h : Fin n → K)
    (lamK : Dual K n me mi) (x p : Fin n → K) (logged : K) : K × K :=
  let constrL1 := constraintsViolation eps prob bd x
  let mu := infNorm lamK
  let phi := prob.cost x + mu * constrL1
  let Dphi := h ⬝ᵥ p - mu * constrL1
  lineSearchLoop cfg.tau cfg.eta phi Dphi mu prob.cost (constraintsViolation eps prob bd) x p
    (cfg.lineSearchMaxIter - 1).toNat 1 logged

/-- Everything that is fixed during a run of `solve`. -/
structure Env (K : Type u) (n me mi : ℕ) (prec : Precond K n (me + mi)) (qps : QPSolver K n (me + mi)) where
  cfg : Settings K
  prob : Problem K n me mi
  bd : Bounds K n mi
  /-- `hessian_update`, by default `BFGS_update` (sqp_base.hpp:343-348) -/
  hessUpdate : Matrix (Fin n) (Fin n) K → (Fin n → K) → (Fin n → K) → Option (Matrix (Fin n) (Fin n) K)
  /-- `hessian_regularisation`, by default nothing (sqp_base.hpp:304-306) -/
  regularise : Matrix (Fin n) (Fin n) K → Matrix (Fin n) (Fin n) K
  /-- `step_size_selection`: from `m_h, m_lam_k, m_x`, the direction and the last `m_cost`, the step size and new `m_cost` -/
  stepSize : (Fin n → K) → Dual K n me mi → (Fin n → K) → (Fin n → K) → K → K × K

variable {prec : Precond K n (me + mi)} {qps : QPSolver K n (me + mi)}

/-- The solver without overrides in the derived class: exact Hessian in the first iteration, `BFGS_update` afterwards, no
regularisation, line search on the merit function; sqp_base.hpp:304-306, 343-348 and 378-419. -/
def defaultEnv (eps : K) (cfg : Settings K) (prob : Problem K n me mi) (bd : Bounds K n mi) : Env K n me mi prec qps where
  cfg := cfg
  prob := prob
  bd := bd
  hessUpdate := QuasiNewton.bfgsUpdate eps
  regularise := id
  stepSize := lineSearch eps cfg prob bd

/-- The QP data formed from a linearisation, sqp_base.hpp:588-593 and 652-657. -/
def formQP (bd : Bounds K n mi) (x : Fin n → K) (H : Matrix (Fin n) (Fin n) K) (h : Fin n → K)
    (A : Matrix (Fin (me + mi)) (Fin n) K) (b : Fin (me + mi) → K) : QP K n (me + mi) where
  H := H
  h := h
  A := A
  Alb := Fin.addCases (fun i => -b (Fin.castAdd mi i)) (fun i => -b (Fin.natAdd me i) + bd.lbg i)
  Aub := Fin.addCases (fun i => -b (Fin.castAdd mi i)) (fun i => -b (Fin.natAdd me i) + bd.ubg i)
  xlb := fun i => bd.lbx i - x i
  xub := fun i => bd.ubx i - x i

/-- `linearisation` (default: exact derivatives and regularisation), sqp_base.hpp:308-330 with 583, followed by 588-593. -/
def linearise (env : Env K n me mi prec qps) (st : State K n me mi prec qps) : State K n me mi prec qps :=
  { st with
    lagGradient := env.prob.lagGrad st.x st.lam
    qp := formQP env.bd st.x (env.regularise (env.prob.lagHess st.x st.lam)) (env.prob.costGrad st.x)
      (env.prob.jac st.x) (env.prob.constr st.x) }

/-- `update_linearisation`, sqp_base.hpp:489-521 with 649, followed by 652-657. -/
def updateLinearisation (env : Env K n me mi prec qps) (st : State K n me mi prec qps) :
    Option (State K n me mi prec qps) :=
  let lagGrad := env.prob.lagGrad st.x st.lam
  (env.hessUpdate st.qp.H st.stepPrev (lagGrad - st.lagGradient)).map fun H =>
    { st with
      lagGradient := lagGrad
      qp := formQP env.bd st.x H (env.prob.costGrad st.x) (env.prob.jac st.x) (env.prob.constr st.x) }

/-- Preconditioning, QP solution and step, sqp_base.hpp:605-632 and 663-683, with `solve_qp` (lines 532-565). -/
def qpStep (env : Env K n me mi prec qps) (st : State K n me mi prec qps) : Option (State K n me mi prec qps) :=
  (prec.compute st.precMem st.qp).map fun (mem, scaled) =>
    let (qpMem, p0, l0, it) := qps.solve st.qpMem scaled
    let (p, lamK) := prec.unscalePair mem (p0, l0)
    let qp := prec.unscale mem scaled
    let pLam := lamK - st.lam
    let (alpha, logged) := env.stepSize qp.h lamK st.x p st.cost
    { st with
      precMem := mem
      qpMem := qpMem
      qp := qp
      lamK := lamK
      cost := logged
      qpIter := st.qpIter + it
      x := fun i => st.x i + alpha * p i
      lam := fun i => st.lam i + alpha * pLam i
      stepPrev := fun i => alpha * p i
      primalNorm := alpha * infNorm p
      dualNorm := alpha * infNorm pLam }

/-- `termination_criteria_impl`, sqp_base.hpp:523-529: sets `m_max_violation`. -/
def measure [NeZero n] (env : Env K n me mi prec qps) (st : State K n me mi prec qps) : State K n me mi prec qps :=
  { st with maxViolation := maxConstraintsViolation env.prob env.bd st.x }

/-- The value returned by `termination_criteria_impl`, sqp_base.hpp:527-528. -/
def terminated (env : Env K n me mi prec qps) (st : State K n me mi prec qps) : Bool :=
  decide (st.primalNorm ≤ env.cfg.epsPrim) && decide (st.dualNorm ≤ env.cfg.epsDual) &&
    decide (st.maxViolation ≤ env.cfg.epsPrim)

/-- The iteration callback, sqp_base.hpp:685-686. -/
def callback (env : Env K n me mi prec qps) (st : State K n me mi prec qps) : State K n me mi prec qps :=
  if env.cfg.callback then { st with callbacks := st.callbacks ++ [st.x] } else st

/-- The main loop, sqp_base.hpp:639-692. `fuel` bounds the number of passes; `solve` provides enough of it
(`Sqp.loop_fuel`). -/
def loop [NeZero n] (env : Env K n me mi prec qps) : ℕ → State K n me mi prec qps → Option (State K n me mi prec qps)
  | 0, st => some st
  | fuel + 1, st =>
    if st.iter < env.cfg.maxIter then
      (updateLinearisation env { st with iter := st.iter + 1 }).bind fun st1 =>
        (qpStep env st1).bind fun st2 =>
          let st3 := measure env (callback env st2)
          if terminated env st3 then some { st3 with status := .SOLVED }
          else loop env fuel st3
    else some st

/-- `solve`, sqp_base.hpp:567-696. -/
def solve [NeZero n] (env : Env K n me mi prec qps) (st : State K n me mi prec qps) :
    Option (State K n me mi prec qps) :=
  let st0 := { st with status := .MAX_ITER_EXCEEDED, qpIter := 0, iter := 1 }
  (qpStep env (linearise env st0)).bind fun st1 =>
    let st2 := measure env st1
    if terminated env st2 then some { st2 with status := .SOLVED }
    else loop env (env.cfg.maxIter - 1).toNat st2

/-- `solve(x_guess, lam_guess)`, sqp_base.hpp:369-374. -/
def solveFrom [NeZero n] (env : Env K n me mi prec qps) (st : State K n me mi prec qps) (xg : Fin n → K)
    (lg : Dual K n me mi) : Option (State K n me mi prec qps) :=
  solve env { st with x := xg, lam := lg }

end PolyMPC.Sqp
