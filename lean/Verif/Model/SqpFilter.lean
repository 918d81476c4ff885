import Verif.Model.Sqp
import Verif.Model.Filter

/-!
# SQP solver with a filter line search

`LSFilter` of `/repo/src/solvers/line_search.hpp` (`Model/Filter.lean`) is meant for a derived class of `SQPBase` that overrides `step_size_selection_impl`; the only such class in
the repository is `MySolver` of `/repo/tests/control/valet_parking_mpc_test.cpp:97-166`, which holds the filter as a data member (line 111). The functions below are `qpStep`, `loop` and
`solve` of `Model/Sqp.lean` with this override; the filter is part of the state, since the line search changes it and no function of `SQPBase` resets it. The override of
`hessian_update_impl` (lines 160-165) is the field `hessUpdate` of `Sqp.Env`; the field `stepSize` is not used. See `Model/Sqp.lean` for the simplifications.
-/

namespace PolyMPC.SqpFilter

open PolyMPC.Filter Sqp PolyMPC.Spec

universe u

variable {K : Type u} [Field K] [LinearOrder K] [IsStrictOrderedRing K] {n me mi : ℕ}
variable {prec : Precond K n (me + mi)} {qps : QPSolver K n (me + mi)}

/-- The data members of `MySolver`: those of `SQPBase` and `filter`, valet_parking_mpc_test.cpp:111. -/
structure State (K : Type u) (n me mi : ℕ) (prec : Precond K n (me + mi)) (qps : QPSolver K n (me + mi)) where
  s : Sqp.State K n me mi prec qps
  filter : LSFilter K

/-- The loop of the line search, valet_parking_mpc_test.cpp:132-155. `fuel` is `line_search_max_iter - i`. Returns the step size, the last cost logged in `m_cost` and the filter;
`none` is undefined behaviour in `LSFilter::add`. -/
def searchLoop (tau : K) (cost viol : (Fin n → K) → K) (x p : Fin n → K) (f : LSFilter K) : ℕ → K → K → Option (K × K × LSFilter K)
  | 0, alpha, logged => some (alpha, logged, f)
  | fuel + 1, alpha, _ =>
    let xStep := fun i => alpha * p i + x i
    let costStep := cost xStep
    let constrStep := viol xStep
    if f.isAcceptable costStep constrStep then (f.add costStep constrStep).map fun f' => (alpha, costStep, f')
    else searchLoop tau cost viol x p f fuel (alpha * tau) costStep

/-- The filter after the current point has been offered to it, valet_parking_mpc_test.cpp:122-123. -/
def offer (f : LSFilter K) (c v : K) : Option (LSFilter K) := if f.isAcceptable c v then f.add c v else some f

/-- `step_size_selection_impl`, valet_parking_mpc_test.cpp:114-158. The loop runs for `i = 1, …, line_search_max_iter - 1`. -/
def search (eps : K) (cfg : Settings K) (prob : Problem K n me mi) (bd : Bounds K n mi) (f : LSFilter K) (x p : Fin n → K) (logged : K) : Option (K × K × LSFilter K) :=
  (offer f (prob.cost x) (constraintsViolation eps prob bd x)).bind fun f1 =>
    searchLoop cfg.tau prob.cost (constraintsViolation eps prob bd) x p f1 (cfg.lineSearchMaxIter - 1).toNat 1 logged

/-- Preconditioning, QP solution and step, sqp_base.hpp:605-632 and 663-683, with `step_size_selection_impl` above. -/
def qpStep (eps : K) (env : Env K n me mi prec qps) (st : State K n me mi prec qps) : Option (State K n me mi prec qps) :=
  (prec.compute st.s.precMem st.s.qp).bind fun (mem, scaled) =>
    let (qpMem, p0, l0, it) := qps.solve st.s.qpMem scaled
    let (p, lamK) := prec.unscalePair mem (p0, l0)
    let qp := prec.unscale mem scaled
    let pLam := lamK - st.s.lam
    (search eps env.cfg env.prob env.bd st.filter st.s.x p st.s.cost).map fun (alpha, logged, f) =>
      { filter := f
        s := { st.s with
          precMem := mem
          qpMem := qpMem
          qp := qp
          lamK := lamK
          cost := logged
          qpIter := st.s.qpIter + it
          x := fun i => st.s.x i + alpha * p i
          lam := fun i => st.s.lam i + alpha * pLam i
          stepPrev := fun i => alpha * p i
          primalNorm := alpha * infNorm p
          dualNorm := alpha * infNorm pLam } }

/-- One iteration of the main loop up to the termination test, sqp_base.hpp:641-686. -/
def pass [NeZero n] (eps : K) (env : Env K n me mi prec qps) (st : State K n me mi prec qps) : Option (State K n me mi prec qps) :=
  (updateLinearisation env { st.s with iter := st.s.iter + 1 }).bind fun s1 =>
    (qpStep eps env { st with s := s1 }).map fun st2 => { st2 with s := measure env (callback env st2.s) }

/-- The main loop, sqp_base.hpp:639-692. -/
def loop [NeZero n] (eps : K) (env : Env K n me mi prec qps) : ℕ → State K n me mi prec qps → Option (State K n me mi prec qps)
  | 0, st => some st
  | fuel + 1, st =>
    if st.s.iter < env.cfg.maxIter then
      (pass eps env st).bind fun st3 => if terminated env st3.s then some { st3 with s := { st3.s with status := .SOLVED } } else loop eps env fuel st3
    else some st

/-- The first iteration of `solve`, sqp_base.hpp:567-634. -/
def firstPass [NeZero n] (eps : K) (env : Env K n me mi prec qps) (st : State K n me mi prec qps) : Option (State K n me mi prec qps) :=
  (qpStep eps env { st with s := linearise env { st.s with status := .MAX_ITER_EXCEEDED, qpIter := 0, iter := 1 } }).map fun st1 => { st1 with s := measure env st1.s }

/-- `solve`, sqp_base.hpp:567-696. The filter keeps what earlier calls have put into it. -/
def solve [NeZero n] (eps : K) (env : Env K n me mi prec qps) (st : State K n me mi prec qps) : Option (State K n me mi prec qps) :=
  (firstPass eps env st).bind fun st2 =>
    if terminated env st2.s then some { st2 with s := { st2.s with status := .SOLVED } } else loop eps env (env.cfg.maxIter - 1).toNat st2

end PolyMPC.SqpFilter
