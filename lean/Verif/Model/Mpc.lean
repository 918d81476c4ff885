import Verif.Model.Ocp
import Verif.Model.Splines

/-!
# The MPC wrapper

Model of `src/control/mpc_wrapper.hpp` (`MPC`). The members of the NLP solver that the wrapper touches (`m_lbx`, `m_ubx`, `m_lbg`, `m_ubg`,
`m_x`, `m_lam`, `m_p`, sqp_base.hpp:129-141 and the accessors 174-196) are fields of the wrapper. `solve` is an arbitrary function of all of
them that yields a new primal and dual vector: `SQPBase::solve` assigns no bound and no parameter. Arguments are vectors as functions on
natural numbers, of which the first entries are read. Settings and statistics (207-226) are not modelled.
-/

namespace PolyMPC.Mpc
open Ocp Splines

variable {K : Type} [Field K]

/-- Members of the wrapper (mpc_wrapper.hpp:69-74) and of the solver it owns. -/
structure Wrap (d : Dims) (K : Type) where
  lbx : ℕ → K
  ubx : ℕ → K
  lbg : ℕ → K
  ubg : ℕ → K
  x : ℕ → K
  lam : ℕ → K
  par : ℕ → K
  ocp : Obj d K
  grid : ℕ → K
  nodes : Fin (d.N + 1) → K
  /-- `none`: the basis was computed with a division by zero, or with a single node -/
  basis : Option (Fin (d.N + 1) → Fin (d.N + 1) → K)
  len : K
  nps : ℕ

/-- `v.replicate(n, 1)` of a vector of `m` entries -/
def replicate (m : ℕ) (v : ℕ → K) : ℕ → K := fun i => v (i % m)

section Setters
variable {d : Dims} (w : Wrap d K)

/-- mpc_wrapper.hpp:89-93 -/
def initialConditions (x0 : ℕ → K) : Wrap d K :=
  { w with ubx := setSeg w.ubx (d.VARX - d.NX) d.NX x0, lbx := setSeg w.lbx (d.VARX - d.NX) d.NX x0 }
/-- mpc_wrapper.hpp:94-99 -/
def initialBounds (lb ub : ℕ → K) : Wrap d K :=
  { w with ubx := setSeg w.ubx (d.VARX - d.NX) d.NX ub, lbx := setSeg w.lbx (d.VARX - d.NX) d.NX lb }
/-- mpc_wrapper.hpp:103-106 -/
def xLowerBound (lb : ℕ → K) : Wrap d K := { w with lbx := setSeg w.lbx 0 (d.VARX - d.NX) (replicate d.NX lb) }
/-- mpc_wrapper.hpp:107-110 -/
def xUpperBound (ub : ℕ → K) : Wrap d K := { w with ubx := setSeg w.ubx 0 (d.VARX - d.NX) (replicate d.NX ub) }
/-- mpc_wrapper.hpp:111-116 -/
def stateBounds (lb ub : ℕ → K) : Wrap d K :=
  { w with lbx := setSeg w.lbx 0 (d.VARX - d.NX) (replicate d.NX lb), ubx := setSeg w.ubx 0 (d.VARX - d.NX) (replicate d.NX ub) }
/-- mpc_wrapper.hpp:117-122 -/
def stateTrajectoryBounds (lb ub : ℕ → K) : Wrap d K := { w with lbx := setSeg w.lbx 0 d.VARX lb, ubx := setSeg w.ubx 0 d.VARX ub }
/-- mpc_wrapper.hpp:124-127 -/
def xFinalLowerBound (lb : ℕ → K) : Wrap d K := { w with lbx := setSeg w.lbx 0 d.NX lb }
/-- mpc_wrapper.hpp:128-131 -/
def xFinalUpperBound (ub : ℕ → K) : Wrap d K := { w with ubx := setSeg w.ubx 0 d.NX ub }
/-- mpc_wrapper.hpp:132-137 -/
def finalStateBounds (lb ub : ℕ → K) : Wrap d K := { w with lbx := setSeg w.lbx 0 d.NX lb, ubx := setSeg w.ubx 0 d.NX ub }
/-- mpc_wrapper.hpp:140-143 -/
def uLowerBound (lb : ℕ → K) : Wrap d K := { w with lbx := setSeg w.lbx d.VARX d.VARU (replicate d.NU lb) }
/-- mpc_wrapper.hpp:144-147 -/
def uUpperBound (ub : ℕ → K) : Wrap d K := { w with ubx := setSeg w.ubx d.VARX d.VARU (replicate d.NU ub) }
/-- mpc_wrapper.hpp:148-153 -/
def controlTrajectoryBounds (lb ub : ℕ → K) : Wrap d K :=
  { w with lbx := setSeg w.lbx d.VARX d.VARU lb, ubx := setSeg w.ubx d.VARX d.VARU ub }
/-- mpc_wrapper.hpp:154-159 -/
def controlBounds (lb ub : ℕ → K) : Wrap d K :=
  { w with lbx := setSeg w.lbx d.VARX d.VARU (replicate d.NU lb), ubx := setSeg w.ubx d.VARX d.VARU (replicate d.NU ub) }
/-- mpc_wrapper.hpp:162-167 -/
def constraintsTrajectoryBounds (lb ub : ℕ → K) : Wrap d K := { w with lbg := setSeg w.lbg 0 d.NINEQ lb, ubg := setSeg w.ubg 0 d.NINEQ ub }
/-- mpc_wrapper.hpp:169-174 -/
def constraintsBounds (lb ub : ℕ → K) : Wrap d K :=
  { w with lbg := setSeg w.lbg 0 d.NINEQ (replicate d.NG lb), ubg := setSeg w.ubg 0 d.NINEQ (replicate d.NG ub) }
/-- mpc_wrapper.hpp:177-181; `tail<np>()` starts at `VAR_SIZE - np`. -/
def parametersBounds (lb ub : ℕ → K) : Wrap d K :=
  { w with lbx := setSeg w.lbx (d.VAR - d.NP) d.NP lb, ubx := setSeg w.ubx (d.VAR - d.NP) d.NP ub }
/-- mpc_wrapper.hpp:184-187 -/
def setStaticParameters (p : ℕ → K) : Wrap d K := { w with par := p }
/-- mpc_wrapper.hpp:190-193 -/
def xGuess (v : ℕ → K) : Wrap d K := { w with x := setSeg w.x 0 d.VARX v }
/-- mpc_wrapper.hpp:194-197 -/
def uGuess (v : ℕ → K) : Wrap d K := { w with x := setSeg w.x d.VARX d.VARU v }
/-- mpc_wrapper.hpp:198-201 -/
def lamGuess (v : ℕ → K) : Wrap d K := { w with lam := v }
/-- mpc_wrapper.hpp:202-205 -/
def pGuess (v : ℕ → K) : Wrap d K := { w with x := setSeg w.x (d.VAR - d.NP) d.NP v }
/-- mpc_wrapper.hpp:298, see the header of this file. -/
def solve (sol : Wrap d K → (ℕ → K) × (ℕ → K)) : Wrap d K := { w with x := (sol w).1, lam := (sol w).2 }

end Setters

section Time
variable [DecidableEq K]

/-- Grid, nodes and basis from the time nodes of the problem, mpc_wrapper.hpp:47-50 and 82-84. -/
noncomputable def attach {d : Dims} (w : Wrap d K) : Wrap d K :=
  let nodes : Fin (d.N + 1) → K := fun j => w.ocp.time (d.NN - 1 - j)
  { w with grid := fun k => w.ocp.time (d.NN - 1 - k), nodes := nodes, basis := lagrangeBasis nodes }

/-- The constructor, mpc_wrapper.hpp:44-53; `num_nodes / num_segms` is an integer division. -/
noncomputable def construct {d : Dims} (w : Wrap d K) : Wrap d K :=
  { attach w with len := (w.ocp.tStop - w.ocp.tStart) / (d.S : K), nps := d.NN / d.S }

/-- `set_time_limits`, mpc_wrapper.hpp:77-86. -/
noncomputable def setLimits {d : Dims} (A : Approx K) (w : Wrap d K) (t0 tf : K) : Wrap d K :=
  { attach { w with ocp := setTimeLimits d A w.ocp t0 tf } with len := (tf - t0) / (d.S : K) }

/-- `set_time_limits` of the problem, reached through `ocp()` or `solver()`, mpc_wrapper.hpp:217-221: the wrapper is not informed. -/
def ocpSetLimits {d : Dims} (A : Approx K) (w : Wrap d K) (t0 tf : K) : Wrap d K := { w with ocp := setTimeLimits d A w.ocp t0 tf }

end Time

section Getters
variable {d : Dims} (w : Wrap d K)

/-- mpc_wrapper.hpp:230-234; entries below `VARX_SIZE`. -/
def solutionX : ℕ → K := w.x
/-- mpc_wrapper.hpp:236-240: column `c` of the reversed map. -/
def solutionXReshaped (r c : ℕ) : K := w.x ((d.NN - 1 - c) * d.NX + r)
/-- mpc_wrapper.hpp:241-244. The range assertion of `segment` concerns the whole vector. -/
def solutionXAt (k : ℤ) (i : ℕ) : Option K :=
  let start : ℤ := d.VARX - (k + 1) * d.NX
  if 0 ≤ start ∧ start + d.NX ≤ d.VAR then some (w.x (start.toNat + i)) else none
/-- mpc_wrapper.hpp:258-261; entries below `VARU_SIZE`. -/
def solutionU : ℕ → K := fun i => w.x (d.VARX + i)
/-- mpc_wrapper.hpp:262-266 -/
def solutionUReshaped (r c : ℕ) : K := w.x (d.VARX + ((d.NN - 1 - c) * d.NU + r))
/-- mpc_wrapper.hpp:267-270 -/
def solutionUAt (k : ℤ) (i : ℕ) : Option K :=
  let start : ℤ := d.VARX + d.VARU - (k + 1) * d.NU
  if 0 ≤ start ∧ start + d.NU ≤ d.VAR then some (w.x (start.toNat + i)) else none
/-- mpc_wrapper.hpp:285-288 -/
def solutionP : ℕ → K := fun i => w.x (d.VAR - d.NP + i)
/-- mpc_wrapper.hpp:291-294 -/
def solutionDual : ℕ → K := w.lam

variable [LinearOrder K] [FloorRing K]

/-- The segment index, mpc_wrapper.hpp:248-249 and 274-275. Division by zero and a quotient outside the range of `Eigen::Index` are undefined. -/
def segIndex (t : K) : Option ℤ :=
  if w.len = 0 then none
  else if ⌊t / w.len⌋ < -2 ^ 63 ∨ 2 ^ 63 ≤ ⌊t / w.len⌋ then none
  else some (max 0 (min ⌊t / w.len⌋ (d.S - 1)))

/-- Evaluation on the chosen segment, mpc_wrapper.hpp:251-252 and 277-278; the block of columns has to lie in the matrix. -/
def evalSeg (m : ℕ) (cols : ℕ → ℕ → K) (t : K) (r : Fin m) : Option K :=
  (segIndex w t).bind fun idx => w.basis.bind fun B =>
    if idx.toNat * w.nps + (d.N + 1) ≤ d.NN then
      some (lagrangeEval (t - (idx : K) * w.len) (fun (r : Fin m) (j : Fin (d.N + 1)) => cols r (idx.toNat * w.nps + j)) B r)
    else none

/-- mpc_wrapper.hpp:245-255 -/
def solutionXAtTime (t : K) (r : Fin d.NX) : Option K := evalSeg w d.NX (solutionXReshaped w) t r
/-- mpc_wrapper.hpp:271-281 -/
def solutionUAtTime (t : K) (r : Fin d.NU) : Option K := evalSeg w d.NU (solutionUReshaped w) t r

end Getters

/-- The calls that change the wrapper. -/
inductive Call (d : Dims) (K : Type) where
  | initialConditions (x0 : ℕ → K) | initialBounds (lb ub : ℕ → K)
  | xLowerBound (lb : ℕ → K) | xUpperBound (ub : ℕ → K) | stateBounds (lb ub : ℕ → K) | stateTrajectoryBounds (lb ub : ℕ → K)
  | xFinalLowerBound (lb : ℕ → K) | xFinalUpperBound (ub : ℕ → K) | finalStateBounds (lb ub : ℕ → K)
  | uLowerBound (lb : ℕ → K) | uUpperBound (ub : ℕ → K) | controlBounds (lb ub : ℕ → K) | controlTrajectoryBounds (lb ub : ℕ → K)
  | constraintsBounds (lb ub : ℕ → K) | constraintsTrajectoryBounds (lb ub : ℕ → K)
  | parametersBounds (lb ub : ℕ → K) | setStaticParameters (p : ℕ → K)
  | xGuess (v : ℕ → K) | uGuess (v : ℕ → K) | pGuess (v : ℕ → K) | lamGuess (v : ℕ → K)
  | setTimeLimits (t0 tf : K) | solve (sol : Wrap d K → (ℕ → K) × (ℕ → K))

/-- One call. -/
noncomputable def step [DecidableEq K] {d : Dims} (A : Approx K) (w : Wrap d K) : Call d K → Wrap d K
  | .initialConditions x0 => initialConditions w x0
  | .initialBounds lb ub => initialBounds w lb ub
  | .xLowerBound lb => xLowerBound w lb
  | .xUpperBound ub => xUpperBound w ub
  | .stateBounds lb ub => stateBounds w lb ub
  | .stateTrajectoryBounds lb ub => stateTrajectoryBounds w lb ub
  | .xFinalLowerBound lb => xFinalLowerBound w lb
  | .xFinalUpperBound ub => xFinalUpperBound w ub
  | .finalStateBounds lb ub => finalStateBounds w lb ub
  | .uLowerBound lb => uLowerBound w lb
  | .uUpperBound ub => uUpperBound w ub
  | .controlBounds lb ub => controlBounds w lb ub
  | .controlTrajectoryBounds lb ub => controlTrajectoryBounds w lb ub
  | .constraintsBounds lb ub => constraintsBounds w lb ub
  | .constraintsTrajectoryBounds lb ub => constraintsTrajectoryBounds w lb ub
  | .parametersBounds lb ub => parametersBounds w lb ub
  | .setStaticParameters p => setStaticParameters w p
  | .xGuess v => xGuess w v
  | .uGuess v => uGuess w v
  | .pGuess v => pGuess w v
  | .lamGuess v => lamGuess w v
  | .setTimeLimits t0 tf => setLimits A w t0 tf
  | .solve sol => solve w sol

/-- A sequence of calls. -/
noncomputable def run [DecidableEq K] {d : Dims} (A : Approx K) (w : Wrap d K) (cs : List (Call d K)) : Wrap d K := cs.foldl (step A) w

end PolyMPC.Mpc
