import Verif.Model.QPInf
import Verif.Model.SqpBox

/-!
# SQP solver with infinite bounds

As `Verif.Model.Sqp` (`/repo/src/solvers/sqp_base.hpp`, class `SQPBase`), for bounds that are a number or infinite: the constructor sets
all bounds to `±INF` (sqp_base.hpp:75-78, 156). The operations with an infinite operand follow IEEE arithmetic. Lower bounds `+∞` and
upper bounds `-∞` are not modelled. Problem, settings and step size rule are those of `Verif.Model.Sqp`; the QP solver and the
preconditioner are the same objects, called with a QP whose bounds may be infinite.
-/

namespace PolyMPC.SqpInf
open Matrix PolyMPC.Spec PolyMPC.QPInfBase
open PolyMPC.Sqp (Dual Settings Status Problem Precond QPSolver)

universe u

variable {K : Type u} [Field K] [LinearOrder K] [IsStrictOrderedRing K] {n me mi : ℕ}

/-- User bounds, sqp_base.hpp:139 and 141. -/
structure Bounds (K : Type*) (n mi : ℕ) where
  lbx : Fin n → WithBot K
  ubx : Fin n → WithTop K
  lbg : Fin mi → WithBot K
  ubg : Fin mi → WithTop K

/-- The bounds after the constructor, sqp_base.hpp:75-78. -/
def Bounds.none : Bounds K n mi := { lbx := fun _ => ⊥, ubx := fun _ => ⊤, lbg := fun _ => ⊥, ubg := fun _ => ⊤ }

/-- `compute` and `unscale` of a preconditioner on a QP that may have infinite bounds, sqp_base.hpp:605-611 and 663-667. -/
structure PrecondInf {m : ℕ} (prec : Precond K n m) where
  compute : prec.Mem → QPInf K n m → Option (prec.Mem × QPInf K n m)
  unscale : prec.Mem → QPInf K n m → QPInf K n m

/-- `IdentityPreconditioner`, qp_preconditioners.hpp:29-111. -/
def identityInf (K : Type u) [Field K] [LinearOrder K] [IsStrictOrderedRing K] (n m : ℕ) : PrecondInf (Sqp.identityPrecond K n m) where
  compute u qp := some (u, qp)
  unscale _ qp := qp

/-- A lower bound times a positive factor; `-∞` stays. (A factor that is not positive would turn `-∞` into `+∞` or NaN; this is not
modelled, the factors of the Ruiz equilibration are positive.) -/
def scaleLower (lb : WithBot K) (e : K) : WithBot K := lb.map fun l => l * e

/-- An upper bound times a positive factor; `+∞` stays. -/
def scaleUpper (ub : WithTop K) (e : K) : WithTop K := ub.map fun l => l * e

/-- `RuizEquilibration`, qp_preconditioners.hpp:115-550. The sweeps (lines 171-211) do not read the bounds. -/
def ruizInf {m : ℕ} [NeZero n] [NeZero m] (var : Ruiz.Variant K n m) (sq : K → K) : PrecondInf (Sqp.ruizPrecond (K := K) (n := n) (m := m) var sq) where
  compute _ qp :=
    (Ruiz.loop var sq false (fun norm => decide (1 - norm ≥ Ruiz.tolerance)) 4 Ruiz.init (data qp) (10 * Ruiz.tolerance)).map
      fun (P, q) => (P, { H := q.H, h := q.h, A := q.A
                          Alb := fun i => scaleLower (qp.Alb i) (P.E i)
                          Aub := fun i => scaleUpper (qp.Aub i) (P.E i)
                          xlb := fun i => scaleLower (qp.xlb i) (P.D i)⁻¹
                          xub := fun i => scaleUpper (qp.xub i) (P.D i)⁻¹ })
  unscale P qp :=
    let q := Ruiz.unscale P (data qp)
    { H := q.H, h := q.h, A := q.A
      Alb := fun i => scaleLower (qp.Alb i) (P.E i)⁻¹
      Aub := fun i => scaleUpper (qp.Aub i) (P.E i)⁻¹
      xlb := fun i => scaleLower (qp.xlb i) (P.D i)
      xub := fun i => scaleUpper (qp.xub i) (P.D i) }

/-- `solve(H, h, A, al, au, lx, ux)` of the QP solver on a QP that may have infinite bounds. -/
structure QPSolverInf {m : ℕ} (qps : QPSolver K n m) where
  solve : qps.Mem → QPInf K n m → qps.Mem × (Fin n → K) × (Fin m ⊕ Fin n → K) × ℤ

/-- `boxADMM` as the QP solver, see `SqpSparse.boxQps`. -/
noncomputable def boxQpsInf {N M : ℕ} (both : Bool) (lin : BoxAdmm.KktMat ℝ N M → (BoxAdmm.KktIdx N M → ℝ) → (BoxAdmm.KktIdx N M → ℝ)) (sq : ℝ → ℝ)
    (cfg : QPBase.Settings ℝ) : QPSolverInf (SqpSparse.boxQps both lin sq cfg) where
  solve mem qp := match BoxAdmmInf.solve both lin sq cfg qp 0 0 mem with
    | some s => (s, s.x, s.y, s.info.iter)
    | none => (mem, BoxAdmm.State.x mem, BoxAdmm.State.y mem, (BoxAdmm.State.info mem).iter)

/-- Data members of `SQPBase` that `solve` reads or writes, sqp_base.hpp:129-152. `qp` stands for `m_H, m_h, m_A, m_al, m_au, m_lx,
m_ux`. -/
structure State (K : Type u) (n me mi : ℕ) (prec : Precond K n (me + mi)) (qps : QPSolver K n (me + mi)) where
  x : Fin n → K
  lam : Dual K n me mi
  lamK : Dual K n me mi
  qp : QPInf K n (me + mi)
  cost : K
  iter : ℤ
  qpIter : ℤ
  status : Status
  lagGradient : Fin n → K
  stepPrev : Fin n → K
  primalNorm : K
  dualNorm : K
  maxViolation : K
  precMem : prec.Mem
  qpMem : qps.Mem
  /-- primal iterates seen by the iteration callback, oldest first -/
  callbacks : List (Fin n → K)

/-- `lb - v`. -/
def subLower (lb : WithBot K) (v : K) : WithBot K := lb.map fun l => l - v

/-- `v - ub`; `-∞` if `ub = ∞`. -/
def subUpper (v : K) (ub : WithTop K) : WithBot K :=
  match ub with
  | ⊤ => ⊥
  | (u : K) => ((v - u : K) : WithBot K)

/-- `cwiseMax(0)`. -/
def posPart (w : WithBot K) : K :=
  match w with
  | ⊥ => 0
  | (a : K) => max a 0

/-- `constraints_violation_impl`, sqp_base.hpp:421-444. `eps` is `EPSILON`. -/
def constraintsViolation (eps : K) (prob : Problem K n me mi) (bd : Bounds K n mi) (x : Fin n → K) : K :=
  eps + oneNorm (prob.eq x) +
    (∑ i, posPart (subLower (bd.lbg i) (prob.ineq x i))) + (∑ i, posPart (subUpper (prob.ineq x i) (bd.ubg i))) +
    (∑ i, posPart (subLower (bd.lbx i) (x i))) + (∑ i, posPart (subUpper (x i) (bd.ubx i)))

/-- `maxCoeff()` of a vector with entries that may be `-∞`, sqp_base.hpp:465-471. -/
def maxCoeff {k : ℕ} [NeZero k] (v : Fin k → WithBot K) : WithBot K := Finset.univ.sup' Finset.univ_nonempty v

/-- `max_constraints_violation_impl`, sqp_base.hpp:446-474. -/
def maxConstraintsViolation [NeZero n] (prob : Problem K n me mi) (bd : Bounds K n mi) (x : Fin n → K) : K :=
  let c0 : K := if 0 < me then infNorm (prob.eq x) else 0
  let c1 : K :=
    if h : 0 < mi then
      haveI : NeZero mi := ⟨h.ne'⟩
      maxLower (maxLower c0 (maxCoeff fun i => subLower (bd.lbg i) (prob.ineq x i)))
        (maxCoeff fun i => subUpper (prob.ineq x i) (bd.ubg i))
    else c0
  maxLower (maxLower c1 (maxCoeff fun i => subLower (bd.lbx i) (x i))) (maxCoeff fun i => subUpper (x i) (bd.ubx i))

/-- `step_size_selection_impl`, sqp_base.hpp:378-419. -/
def lineSearch (eps : K) (cfg : Settings K) (prob : Problem K n me mi) (bd : Bounds K n mi) (h : Fin n → K)
    (lamK : Dual K n me mi) (x p : Fin n → K) (logged : K) : K × K :=
  let constrL1 := constraintsViolation eps prob bd x
  let mu := infNorm lamK
  let phi := prob.cost x + mu * constrL1
  let Dphi := h ⬝ᵥ p - mu * constrL1
  Sqp.lineSearchLoop cfg.tau cfg.eta phi Dphi mu prob.cost (constraintsViolation eps prob bd) x p
    (cfg.lineSearchMaxIter - 1).toNat 1 logged

/-- Everything that is fixed during a run of `solve`. -/
structure Env (K : Type u) [Field K] [LinearOrder K] [IsStrictOrderedRing K] (n me mi : ℕ) (prec : Precond K n (me + mi)) (qps : QPSolver K n (me + mi)) where
  cfg : Settings K
  prob : Problem K n me mi
  bd : Bounds K n mi
  /-- `hessian_update`, by default `BFGS_update` (sqp_base.hpp:343-348) -/
  hessUpdate : Matrix (Fin n) (Fin n) K → (Fin n → K) → (Fin n → K) → Option (Matrix (Fin n) (Fin n) K)
  /-- `hessian_regularisation`, by default nothing (sqp_base.hpp:304-306) -/
  regularise : Matrix (Fin n) (Fin n) K → Matrix (Fin n) (Fin n) K
  /-- `step_size_selection` -/
  stepSize : (Fin n → K) → Dual K n me mi → (Fin n → K) → (Fin n → K) → K → K × K
  /-- the preconditioner -/
  prec : PrecondInf prec
  /-- the QP solver -/
  qps : QPSolverInf qps

variable {prec : Precond K n (me + mi)} {qps : QPSolver K n (me + mi)}

/-- The solver without overrides in the derived class, see `Sqp.defaultEnv`. -/
def defaultEnv (eps : K) (cfg : Settings K) (prob : Problem K n me mi) (bd : Bounds K n mi) (pi : PrecondInf prec) (qi : QPSolverInf qps) :
    Env K n me mi prec qps where
  cfg := cfg
  prob := prob
  bd := bd
  hessUpdate := QuasiNewton.bfgsUpdate eps
  regularise := id
  stepSize := lineSearch eps cfg prob bd
  prec := pi
  qps := qi

/-- The QP data formed from a linearisation, sqp_base.hpp:588-593 and 652-657. -/
def formQP (bd : Bounds K n mi) (x : Fin n → K) (H : Matrix (Fin n) (Fin n) K) (h : Fin n → K)
    (A : Matrix (Fin (me + mi)) (Fin n) K) (b : Fin (me + mi) → K) : QPInf K n (me + mi) where
  H := H
  h := h
  A := A
  Alb := Fin.addCases (fun i => ((-b (Fin.castAdd mi i) : K) : WithBot K)) (fun i => (bd.lbg i).map fun l => -b (Fin.natAdd me i) + l)
  Aub := Fin.addCases (fun i => ((-b (Fin.castAdd mi i) : K) : WithTop K)) (fun i => (bd.ubg i).map fun u => -b (Fin.natAdd me i) + u)
  xlb := fun i => (bd.lbx i).map fun l => l - x i
  xub := fun i => (bd.ubx i).map fun u => u - x i

/-- `linearisation` (default: exact derivatives and regularisation), sqp_base.hpp:308-330 with 583, followed by 588-593. -/
def linearise (env : Env K n me mi prec qps) (st : State K n me mi prec qps) : State K n me mi prec qps :=
  { st with
    lagGradient := env.prob.lagGrad st.x st.lam
    qp := formQP env.bd st.x (env.regularise (env.prob.lagHess st.x st.lam)) (env.prob.costGrad st.x)
      (env.prob.jac st.x) (env.prob.constr st.x) }

/-- `update_linearisation`, sqp_base.hpp:489-521 with 649, followed by 652-657. -/
def updateLinearisation (env : Env K n me mi prec qps) (st : State K n me mi prec qps) :
    Option (State K n me mi prec qps) :=
  let lagGrad := env.prob.lagGrad st.x st.lam
  (env.hessUpdate st.qp.H st.stepPrev (lagGrad - st.lagGradient)).map fun H =>
    { st with
      lagGradient := lagGrad
      qp := formQP env.bd st.x H (env.prob.costGrad st.x) (env.prob.jac st.x) (env.prob.constr st.x) }

/-- Preconditioning, QP solution and step, sqp_base.hpp:605-632 and 663-683, with `solve_qp` (lines 532-565). -/
def qpStep (env : Env K n me mi prec qps) (st : State K n me mi prec qps) : Option (State K n me mi prec qps) :=
  (env.prec.compute st.precMem st.qp).map fun (mem, scaled) =>
    let (qpMem, p0, l0, it) := env.qps.solve st.qpMem scaled
    let (p, lamK) := prec.unscalePair mem (p0, l0)
    let qp := env.prec.unscale mem scaled
    let pLam := lamK - st.lam
    let (alpha, logged) := env.stepSize qp.h lamK st.x p st.cost
    { st with
      precMem := mem
      qpMem := qpMem
      qp := qp
      lamK := lamK
      cost := logged
      qpIter := st.qpIter + it
      x := fun i => st.x i + alpha * p i
      lam := fun i => st.lam i + alpha * pLam i
      stepPrev := fun i => alpha * p i
      primalNorm := alpha * infNorm p
      dualNorm := alpha * infNorm pLam }

/-- `termination_criteria_impl`, sqp_base.hpp:523-529: sets `m_max_violation`. -/
def measure [NeZero n] (env : Env K n me mi prec qps) (st : State K n me mi prec qps) : State K n me mi prec qps :=
  { st with maxViolation := maxConstraintsViolation env.prob env.bd st.x }

/-- The value returned by `termination_criteria_impl`, sqp_base.hpp:527-528. -/
def terminated (env : Env K n me mi prec qps) (st : State K n me mi prec qps) : Bool :=
  decide (st.primalNorm ≤ env.cfg.epsPrim) && decide (st.dualNorm ≤ env.cfg.epsDual) &&
    decide (st.maxViolation ≤ env.cfg.epsPrim)

/-- The iteration callback, sqp_base.hpp:685-686. -/
def callback (env : Env K n me mi prec qps) (st : State K n me mi prec qps) : State K n me mi prec qps :=
  if env.cfg.callback then { st with callbacks := st.callbacks ++ [st.x] } else st

/-- The main loop, sqp_base.hpp:639-692. `fuel` bounds the number of passes; `solve` provides enough of it. -/
def loop [NeZero n] (env : Env K n me mi prec qps) : ℕ → State K n me mi prec qps → Option (State K n me mi prec qps)
  | 0, st => some st
  | fuel + 1, st =>
    if st.iter < env.cfg.maxIter then
      (updateLinearisation env { st with iter := st.iter + 1 }).bind fun st1 =>
        (qpStep env st1).bind fun st2 =>
          let st3 := measure env (callback env st2)
          if terminated env st3 then some { st3 with status := .SOLVED }
          else loop env fuel st3
    else some st

/-- `solve`, sqp_base.hpp:567-696. -/
def solve [NeZero n] (env : Env K n me mi prec qps) (st : State K n me mi prec qps) :
    Option (State K n me mi prec qps) :=
  let st0 := { st with status := .MAX_ITER_EXCEEDED, qpIter := 0, iter := 1 }
  (qpStep env (linearise env st0)).bind fun st1 =>
    let st2 := measure env st1
    if terminated env st2 then some { st2 with status := .SOLVED }
    else loop env (env.cfg.maxIter - 1).toNat st2

/-- `SQPBase` with the defaults for the QP solver and the preconditioner, see `Sqp.boxEnv`. -/
noncomputable def boxEnv (both : Bool) (lin : BoxAdmm.KktMat ℝ n (me + mi) → (BoxAdmm.KktIdx n (me + mi) → ℝ) → (BoxAdmm.KktIdx n (me + mi) → ℝ))
    (sq : ℝ → ℝ) (qcfg : QPBase.Settings ℝ) (eps : ℝ) (cfg : Settings ℝ) (prob : Problem ℝ n me mi) (bd : Bounds ℝ n mi) :
    Env ℝ n me mi (Sqp.identityPrecond ℝ n (me + mi)) (SqpSparse.boxQps both lin sq qcfg) :=
  defaultEnv eps cfg prob bd (identityInf ℝ n (me + mi)) (boxQpsInf both lin sq qcfg)

end PolyMPC.SqpInf
