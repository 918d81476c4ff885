import Verif.Model.Mpc
import Verif.Model.Sqp
import Verif.Spec.Ocp

/-!
# The MPC wrapper with the SQP solver and the dense transcription

`MPC<OCP, Solver>` (mpc_wrapper.hpp:22-53) with `OCP` derived from `ContinuousOCP` (continuous_ocp.hpp) and `Solver` derived from `SQPBase` (sqp_base.hpp).
The solver calls the transcription; both are the models of `Model/Ocp.lean` and `Model/Sqp.lean`.

Simplifications: the solver's variables are vectors of length `VAR_SIZE`, the transcription's are functions on natural numbers, of which the first `VAR_SIZE`
entries are read. The members of the transcription that hold derivatives between calls are those of `o`; by `MpcSqp.problem_any` their
values do not matter, and by `MpcSqp.problem_hessian` the first iteration, which calls `lagrangian_gradient_hessian`, gets the same cost and gradient. The old contents of outputs and uninitialised local variables are the fields of `Scratch`.
-/

namespace PolyMPC.MpcSqp
open Ocp Mpc Spec AD

/-- Contents of storage that the transcription overwrites: `DX` (continuous_ocp.hpp:746), the outputs, and the local AD vectors (2117-2118). -/
structure Scratch (d : Dims) where
  junk : ℕ → ℕ → ℝ
  c0 : ℕ → ℝ
  J0 : ℕ → ℕ → ℝ
  xd0 : ℕ → AD.Dual d.M (AD.Dual d.M ℝ)
  g0 : ℕ → AD.Dual d.M (AD.Dual d.M ℝ)

variable {d : Dims}

/-- Multipliers as one vector: equalities and inequalities, then bounds (sqp_base.hpp:146, continuous_ocp.hpp:1968-1972). -/
def ofDual (lam : Sqp.Dual ℝ d.VAR d.NEQ d.NINEQ) : ℕ → ℝ := fun i =>
  if h : i < d.NEQ + d.NINEQ then lam (Sum.inl ⟨i, h⟩) else
  if h : i - (d.NEQ + d.NINEQ) < d.VAR then lam (Sum.inr ⟨i - (d.NEQ + d.NINEQ), h⟩) else 0

/-- The same vector as the solver sees it. -/
def toDual (d : Dims) (v : ℕ → ℝ) : Sqp.Dual ℝ d.VAR d.NEQ d.NINEQ := Sum.elim (fun i => v i) (fun i => v (d.NEQ + d.NINEQ + i))

/-- What `SQPBase` calls: `cost` (continuous_ocp.hpp:1182), `equalities` (739), `inequalities` (770), `lagrangian_gradient` (1960) and `lagrangian_gradient_hessian` (2100);
called from sqp_base.hpp:308-330, 378-474 and 489-521. The Hessian is only read if the call does not fail an assertion (C77). -/
noncomputable def problem (A : Approx ℝ) (cb : Cbs d ℝ) (o : Obj d ℝ) (sc : Scratch d) : Sqp.Problem ℝ d.VAR d.NEQ d.NINEQ where
  cost x := cost d A cb o (ext x)
  eq x i := equalities d A cb o sc.junk (ext x) sc.c0 i
  ineq x i := inequalities d cb o (ext x) sc.c0 i
  costGrad x c := (lagrangianGradient d A cb o sc.junk (ext x) (fun _ => 0) sc.c0 sc.J0).2.2.1 c
  constr x r := (lagrangianGradient d A cb o sc.junk (ext x) (fun _ => 0) sc.c0 sc.J0).2.2.2.1 r
  jac x := Matrix.of fun r c => (lagrangianGradient d A cb o sc.junk (ext x) (fun _ => 0) sc.c0 sc.J0).2.2.2.2.1 r c
  lagGrad x lam c := (lagrangianGradient d A cb o sc.junk (ext x) (ofDual lam) sc.c0 sc.J0).2.1 c
  lagHess x lam := Matrix.of fun r c =>
    ((lagrangianGradientHessian d A cb o sc.junk (ext x) (ofDual lam) sc.c0 sc.J0 sc.xd0 sc.g0 1).map fun t => t.2.2.1 r c).getD 0

/-- The bounds in the solver, set through the wrapper (mpc_wrapper.hpp:89-181). -/
def bounds (w : Wrap d ℝ) : Sqp.Bounds ℝ d.VAR d.NINEQ where
  lbx i := w.lbx i
  ubx i := w.ubx i
  lbg i := w.lbg i
  ubg i := w.ubg i

variable {prec : Sqp.Precond ℝ d.VAR (d.NEQ + d.NINEQ)} {qps : Sqp.QPSolver ℝ d.VAR (d.NEQ + d.NINEQ)}

/-- The solver starts from the point and multipliers that the wrapper's guesses were written to (mpc_wrapper.hpp:190-205); `s` holds its other members. -/
def start (w : Wrap d ℝ) (s : Sqp.State ℝ d.VAR d.NEQ d.NINEQ prec qps) : Sqp.State ℝ d.VAR d.NEQ d.NINEQ prec qps :=
  { s with x := fun i => w.x i, lam := toDual d w.lam }

/-- The wrapper after a solve that ended with `r`, mpc_wrapper.hpp:298. -/
def finish (w : Wrap d ℝ) (r : Sqp.State ℝ d.VAR d.NEQ d.NINEQ prec qps) : Wrap d ℝ := Mpc.solve w fun _ => (ext r.x, ofDual r.lam)

end PolyMPC.MpcSqp
