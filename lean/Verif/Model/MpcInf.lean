import Verif.Model.MpcSqp
import Verif.Model.SqpInf

/-!
# The MPC wrapper with infinite limits

As `Verif.Model.Mpc` and `Verif.Model.MpcSqp` (`/repo/src/control/mpc_wrapper.hpp`), for bounds that are a number or infinite: the wrapper's constructor does not touch the
bounds, which the constructor of the solver has set to `±INF` (sqp_base.hpp:75-78, 156), and the user may pass `±INF`. Lower bounds `+∞` and upper bounds `-∞` are not modelled.
The solver is `SQPBase` without overrides in the derived class (`SqpInf.defaultEnv`).
-/

namespace PolyMPC.MpcInf
open Ocp Mpc MpcSqp Spec

variable {d : Dims}

/-- The wrapper: the bounds of the solver (sqp_base.hpp:139-141), and everything else in `w`, whose bounds are not used. -/
structure Wrap (d : Dims) where
  lbx : ℕ → WithBot ℝ
  ubx : ℕ → WithTop ℝ
  lbg : ℕ → WithBot ℝ
  ubg : ℕ → WithTop ℝ
  w : Mpc.Wrap d ℝ

/-- The constructor, mpc_wrapper.hpp:44-53, with the bounds from the constructor of the solver, sqp_base.hpp:75-78. -/
noncomputable def construct (w : Mpc.Wrap d ℝ) : Wrap d where
  lbx _ := ⊥
  ubx _ := ⊤
  lbg _ := ⊥
  ubg _ := ⊤
  w := Mpc.construct w

/-- The calls that change the wrapper, except `solve`; arguments as in `Mpc.Call`. -/
inductive Call where
  | initialConditions (x0 : ℕ → ℝ) | initialBounds (lb : ℕ → WithBot ℝ) (ub : ℕ → WithTop ℝ)
  | xLowerBound (lb : ℕ → WithBot ℝ) | xUpperBound (ub : ℕ → WithTop ℝ) | stateBounds (lb : ℕ → WithBot ℝ) (ub : ℕ → WithTop ℝ)
  | stateTrajectoryBounds (lb : ℕ → WithBot ℝ) (ub : ℕ → WithTop ℝ)
  | xFinalLowerBound (lb : ℕ → WithBot ℝ) | xFinalUpperBound (ub : ℕ → WithTop ℝ) | finalStateBounds (lb : ℕ → WithBot ℝ) (ub : ℕ → WithTop ℝ)
  | uLowerBound (lb : ℕ → WithBot ℝ) | uUpperBound (ub : ℕ → WithTop ℝ) | controlBounds (lb : ℕ → WithBot ℝ) (ub : ℕ → WithTop ℝ)
  | controlTrajectoryBounds (lb : ℕ → WithBot ℝ) (ub : ℕ → WithTop ℝ)
  | constraintsBounds (lb : ℕ → WithBot ℝ) (ub : ℕ → WithTop ℝ) | constraintsTrajectoryBounds (lb : ℕ → WithBot ℝ) (ub : ℕ → WithTop ℝ)
  | parametersBounds (lb : ℕ → WithBot ℝ) (ub : ℕ → WithTop ℝ) | setStaticParameters (p : ℕ → ℝ)
  | xGuess (v : ℕ → ℝ) | uGuess (v : ℕ → ℝ) | pGuess (v : ℕ → ℝ) | lamGuess (v : ℕ → ℝ)
  | setTimeLimits (t0 tf : ℝ)

/-- One call: mpc_wrapper.hpp:77-205, see `Mpc.step` and the setters there. -/
noncomputable def step (A : Approx ℝ) (w : Wrap d) : Call → Wrap d
  | .initialConditions x0 =>
    { w with ubx := setSeg w.ubx (d.VARX - d.NX) d.NX fun i => (x0 i : WithTop ℝ), lbx := setSeg w.lbx (d.VARX - d.NX) d.NX fun i => (x0 i : WithBot ℝ) }
  | .initialBounds lb ub => { w with ubx := setSeg w.ubx (d.VARX - d.NX) d.NX ub, lbx := setSeg w.lbx (d.VARX - d.NX) d.NX lb }
  | .xLowerBound lb => { w with lbx := setSeg w.lbx 0 (d.VARX - d.NX) (replicate d.NX lb) }
  | .xUpperBound ub => { w with ubx := setSeg w.ubx 0 (d.VARX - d.NX) (replicate d.NX ub) }
  | .stateBounds lb ub => { w with lbx := setSeg w.lbx 0 (d.VARX - d.NX) (replicate d.NX lb), ubx := setSeg w.ubx 0 (d.VARX - d.NX) (replicate d.NX ub) }
  | .stateTrajectoryBounds lb ub => { w with lbx := setSeg w.lbx 0 d.VARX lb, ubx := setSeg w.ubx 0 d.VARX ub }
  | .xFinalLowerBound lb => { w with lbx := setSeg w.lbx 0 d.NX lb }
  | .xFinalUpperBound ub => { w with ubx := setSeg w.ubx 0 d.NX ub }
  | .finalStateBounds lb ub => { w with lbx := setSeg w.lbx 0 d.NX lb, ubx := setSeg w.ubx 0 d.NX ub }
  | .uLowerBound lb => { w with lbx := setSeg w.lbx d.VARX d.VARU (replicate d.NU lb) }
  | .uUpperBound ub => { w with ubx := setSeg w.ubx d.VARX d.VARU (replicate d.NU ub) }
  | .controlBounds lb ub => { w with lbx := setSeg w.lbx d.VARX d.VARU (replicate d.NU lb), ubx := setSeg w.ubx d.VARX d.VARU (replicate d.NU ub) }
  | .controlTrajectoryBounds lb ub => { w with lbx := setSeg w.lbx d.VARX d.VARU lb, ubx := setSeg w.ubx d.VARX d.VARU ub }
  | .constraintsBounds lb ub => { w with lbg := setSeg w.lbg 0 d.NINEQ (replicate d.NG lb), ubg := setSeg w.ubg 0 d.NINEQ (replicate d.NG ub) }
  | .constraintsTrajectoryBounds lb ub => { w with lbg := setSeg w.lbg 0 d.NINEQ lb, ubg := setSeg w.ubg 0 d.NINEQ ub }
  | .parametersBounds lb ub => { w with lbx := setSeg w.lbx (d.VAR - d.NP) d.NP lb, ubx := setSeg w.ubx (d.VAR - d.NP) d.NP ub }
  | .setStaticParameters p => { w with w := Mpc.setStaticParameters w.w p }
  | .xGuess v => { w with w := Mpc.xGuess w.w v }
  | .uGuess v => { w with w := Mpc.uGuess w.w v }
  | .pGuess v => { w with w := Mpc.pGuess w.w v }
  | .lamGuess v => { w with w := Mpc.lamGuess w.w v }
  | .setTimeLimits t0 tf => { w with w := Mpc.setLimits A w.w t0 tf }

/-- The bounds in the solver, set through the wrapper (mpc_wrapper.hpp:89-181). -/
def bounds (w : Wrap d) : SqpInf.Bounds ℝ d.VAR d.NINEQ where
  lbx i := w.lbx i
  ubx i := w.ubx i
  lbg i := w.lbg i
  ubg i := w.ubg i

variable {prec : Sqp.Precond ℝ d.VAR (d.NEQ + d.NINEQ)} {qps : Sqp.QPSolver ℝ d.VAR (d.NEQ + d.NINEQ)}

/-- See `MpcSqp.start`. -/
def start (w : Wrap d) (s : SqpInf.State ℝ d.VAR d.NEQ d.NINEQ prec qps) : SqpInf.State ℝ d.VAR d.NEQ d.NINEQ prec qps :=
  { s with x := fun i => w.w.x i, lam := toDual d w.w.lam }

/-- The wrapper after a solve that ended with `r`, mpc_wrapper.hpp:298. -/
def finish (w : Wrap d) (r : SqpInf.State ℝ d.VAR d.NEQ d.NINEQ prec qps) : Wrap d := { w with w := Mpc.solve w.w fun _ => (ext r.x, ofDual r.lam) }

/-- What does not change while a wrapper is used: the collocation scheme, the callbacks as functions of the static parameters, the machine epsilon. -/
structure Program (d : Dims) where
  A : Approx ℝ
  cb : (ℕ → ℝ) → Cbs d ℝ
  eps : ℝ

/-- The program that `solve` hands to the solver. -/
noncomputable def Program.problem (P : Program d) (w : Mpc.Wrap d ℝ) (sc : Scratch d) : Sqp.Problem ℝ d.VAR d.NEQ d.NINEQ := MpcSqp.problem P.A (P.cb w.par) w.ocp sc

/-- A use of the wrapper: a call of a setter, or `solve()` (mpc_wrapper.hpp:298) with the settings in force and any contents of uninitialised storage. -/
inductive Op (d : Dims) where
  | set (c : Call)
  | solve (cfg : Sqp.Settings ℝ) (sc : Scratch d)

/-- A session with the wrapper `w` and the solver members `s`; `none` if a solve fails. -/
noncomputable def session [NeZero d.VAR] (P : Program d) (pi : SqpInf.PrecondInf prec) (qi : SqpInf.QPSolverInf qps) :
    Wrap d → SqpInf.State ℝ d.VAR d.NEQ d.NINEQ prec qps → List (Op d) → Option (Wrap d × SqpInf.State ℝ d.VAR d.NEQ d.NINEQ prec qps)
  | w, s, [] => some (w, s)
  | w, s, .set c :: ops => session P pi qi (step P.A w c) s ops
  | w, s, .solve cfg sc :: ops =>
    (SqpInf.solve (SqpInf.defaultEnv P.eps cfg (P.problem w.w sc) (bounds w) pi qi) (start w s)).bind fun r => session P pi qi (finish w r) r ops

/-- A use of the wrapper with finite bounds. -/
inductive FOp (d : Dims) where
  | set (c : Mpc.Call d ℝ)
  | solve (cfg : Sqp.Settings ℝ) (sc : Scratch d)

/-- The same for the wrapper and solver with finite bounds. -/
noncomputable def sessionFin [NeZero d.VAR] (P : Program d) :
    Mpc.Wrap d ℝ → Sqp.State ℝ d.VAR d.NEQ d.NINEQ prec qps → List (FOp d) → Option (Mpc.Wrap d ℝ × Sqp.State ℝ d.VAR d.NEQ d.NINEQ prec qps)
  | w, s, [] => some (w, s)
  | w, s, .set c :: ops => sessionFin P (Mpc.step P.A w c) s ops
  | w, s, .solve cfg sc :: ops =>
    (Sqp.solve (Sqp.defaultEnv P.eps cfg (P.problem w sc) (MpcSqp.bounds w)) (MpcSqp.start w s)).bind fun r => sessionFin P (MpcSqp.finish w r) r ops

end PolyMPC.MpcInf
