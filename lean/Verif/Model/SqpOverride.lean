import Verif.Model.Sqp

/-!
# SQP solver with an overridden `update_linearisation`

`SQPBase` calls `update_linearisation` of the derived class (`/repo/src/solvers/sqp_base.hpp:242-261`); the default is `updateLinearisation` of `Model/Sqp.lean`. A derived class
may replace it, for example by the exact linearisation, as `/repo/tests/control/nonlinear_constraints_test.cpp:138-156` and `/repo/tests/control/minimal_time_test.cpp:126-142` do.
The functions below are `loop` and `solve` of `Model/Sqp.lean` with this function as a parameter; see there for the simplifications.
-/

namespace PolyMPC.Sqp

universe u

variable {K : Type u} [Field K] [LinearOrder K] [IsStrictOrderedRing K] {n me mi : ℕ}
variable {prec : Precond K n (me + mi)} {qps : QPSolver K n (me + mi)}

/-- The override that calls `linearisation` in every iteration, nonlinear_constraints_test.cpp:138-156, followed by sqp_base.hpp:652-657. -/
def exactUpdate (env : Env K n me mi prec qps) (st : State K n me mi prec qps) : Option (State K n me mi prec qps) := some (linearise env st)

/-- The body of the main loop up to the termination test, sqp_base.hpp:641-686. -/
def passWith [NeZero n] (env : Env K n me mi prec qps) (upd : State K n me mi prec qps → Option (State K n me mi prec qps)) (st : State K n me mi prec qps) :
    Option (State K n me mi prec qps) :=
  (upd { st with iter := st.iter + 1 }).bind fun st1 => (qpStep env st1).map fun st2 => measure env (callback env st2)

/-- The main loop, sqp_base.hpp:639-692. -/
def loopWith [NeZero n] (env : Env K n me mi prec qps) (upd : State K n me mi prec qps → Option (State K n me mi prec qps)) :
    ℕ → State K n me mi prec qps → Option (State K n me mi prec qps)
  | 0, st => some st
  | fuel + 1, st =>
    if st.iter < env.cfg.maxIter then
      (passWith env upd st).bind fun st3 => if terminated env st3 then some { st3 with status := .SOLVED } else loopWith env upd fuel st3
    else some st

/-- `solve`, sqp_base.hpp:567-696. -/
def solveWith [NeZero n] (env : Env K n me mi prec qps) (upd : State K n me mi prec qps → Option (State K n me mi prec qps)) (st : State K n me mi prec qps) :
    Option (State K n me mi prec qps) :=
  let st0 := { st with status := .MAX_ITER_EXCEEDED, qpIter := 0, iter := 1 }
  (qpStep env (linearise env st0)).bind fun st1 =>
    let st2 := measure env st1
    if terminated env st2 then some { st2 with status := .SOLVED } else loopWith env upd (env.cfg.maxIter - 1).toNat st2

end PolyMPC.Sqp
