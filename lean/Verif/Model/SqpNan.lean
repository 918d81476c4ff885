import Verif.Model.Sqp
import Verif.Model.FilterNan

/-!
# Violation, line search and termination test of SQP with NaN

The parts of `/repo/src/solvers/sqp_base.hpp` that look at values of the cost and of the constraints, where these may be NaN
(`none`). Comparisons with NaN are false, arithmetic with NaN gives NaN, and `fmax` returns its other argument (C99,
7.12.12.2). What `maxCoeff` and `lpNorm<Infinity>` of Eigen do with a vector that has some NaN entries depends on the
instruction set; it is a parameter `mc`. The point, the step, the bounds and the settings are numbers.
-/

namespace PolyMPC.SqpNan
open PolyMPC.FilterNan

variable {K : Type*} [Field K] [LinearOrder K] {n me mi : ℕ}

/-- `fmax`, sqp_base.hpp:465-471. -/
def fmaxN : Option K → Option K → Option K
  | some a, some b => some (max a b)
  | some a, none => some a
  | none, b => b

/-- `a - b`, sqp_base.hpp:465-466 -/
def subN (a b : Option K) : Option K := a.bind fun a => b.map fun b => a - b

/-- `max_constraints_violation_impl`, sqp_base.hpp:446-474, for the values `c` and `g` of the constraints. -/
def maxViolation (mc : (k : ℕ) → (Fin k → Option K) → Option K) (bd : Sqp.Bounds K n mi) (c : Fin me → Option K)
    (g : Fin mi → Option K) (x : Fin n → K) : Option K :=
  let c0 : Option K := if 0 < me then mc me (fun i => (c i).map fun t => |t|) else some 0
  let c1 : Option K :=
    if 0 < mi then
      fmaxN (fmaxN c0 (mc mi fun i => subN (some (bd.lbg i)) (g i))) (mc mi fun i => subN (g i) (some (bd.ubg i)))
    else c0
  fmaxN (fmaxN c1 (mc n fun i => some (bd.lbx i - x i))) (mc n fun i => some (x i - bd.ubx i))

/-- The value of `termination_criteria_impl`, sqp_base.hpp:527-528. -/
def terminatedN (epsPrim epsDual primalNorm dualNorm : K) (viol : Option K) : Bool :=
  decide (primalNorm ≤ epsPrim) && decide (dualNorm ≤ epsDual) && leN viol (some epsPrim)

/-- The loop of the line search, sqp_base.hpp:403-416: `merit alpha` is `phi_l1_step`, `phi` is `phi_l1`. -/
def searchLoop (tau eta : K) (phi : Option K) (Dphi : Option K) (merit : K → Option K) : ℕ → K → K
  | 0, alpha => alpha
  | fuel + 1, alpha =>
    if leN (merit alpha) (phi.bind fun a => Dphi.map fun b => a + alpha * eta * b) then alpha
    else searchLoop tau eta phi Dphi merit fuel (tau * alpha)

/-- `step_size_selection_impl`, sqp_base.hpp:400-419. -/
def stepSize (tau eta : K) (phi Dphi : Option K) (merit : K → Option K) (maxIter : ℤ) : K :=
  searchLoop tau eta phi Dphi merit (maxIter - 1).toNat 1

/-- What happens after a step `p`, `pl` has been computed, sqp_base.hpp:619-637 and 674-691: line search, norms of the step,
termination test. `cAt`, `gAt` are the constraints at the new point. -/
def stepAndTest (mc : (k : ℕ) → (Fin k → Option K) → Option K) (cfg : Sqp.Settings K) (bd : Sqp.Bounds K n mi)
    (phi Dphi : Option K) (merit : K → Option K) (x p : Fin n → K) (normP normPl : K)
    (cAt : (Fin n → K) → Fin me → Option K) (gAt : (Fin n → K) → Fin mi → Option K) : Bool :=
  let alpha := stepSize cfg.tau cfg.eta phi Dphi merit cfg.lineSearchMaxIter
  let x' := fun i => x i + alpha * p i
  terminatedN cfg.epsPrim cfg.epsDual (alpha * normP) (alpha * normPl) (maxViolation mc bd (cAt x') (gAt x') x')

end PolyMPC.SqpNan
