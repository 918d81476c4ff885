import Verif.Model.Storage

/-!
# Storage of the dense SQP solver for optimal control problems

Sizes in `SQPBase` (src/solvers/sqp_base.hpp) with its default QP solver `boxADMM` and the identity preconditioner (which does nothing) and in the
dense functions of `ContinuousOCP` (src/control/continuous_ocp.hpp) that it calls. See `Verif.Model.Storage` for the language.

The user's callbacks receive the arguments listed in the code and are taken to access nothing else. Loops over the entries of one fixed-size
temporary (`jac.row(i)`, `hes.col(i)`) are one access to the whole temporary.
-/

namespace PolyMPC.Storage
open Ocp (Dims)

/-- `DUAL_SIZE`, continuous_ocp.hpp:92. -/
def dualSize (d : Dims) : ℕ := d.NEQ + d.NINEQ + d.VAR

section Ocp
variable {V : Type} (d : Dims)

/-- Reading the values at node `k` of the trajectory: `var.segment<NX>(k * NX)`, `var.segment<NU>(k * NU + VARX_SIZE)`, `time_nodes(k)`. -/
def readNode (var : Exp V) (k : ℕ) : Cmd V :=
  .block [.read (.seg var (k * d.NX) d.NX), .read (.seg var (k * d.NU + d.VARX) d.NU), .read (.at' (.lit d.NN 1) k)]

/-- `cost`, continuous_ocp.hpp:1181-1209. -/
def ocpCost (var : Exp V) : Cmd V :=
  .block [.upto d.S fun s => .upto (d.N + 1) fun k =>
      .block [readNode d var (k + s * d.N), .read (.seg var (d.VARX + d.VARU) d.NP), .read (.at' (.lit (d.N + 1) 1) k)],
    .read (.head var d.NX), .read (.seg var d.VARX d.NU), .read (.seg var (d.VARX + d.VARU) d.NP)]

/-- Adding to the cost gradient at node `k`, continuous_ocp.hpp:1231-1236, 1290-1295; the derivative vector of the AD result has `NX + NU + NP`
entries. -/
def addGrad (grad : Exp V) (k : ℕ) : Cmd V :=
  .block [.write (.seg grad (k * d.NX) d.NX) (.head (.lit d.M 1) d.NX),
    .write (.seg grad (k * d.NU + d.VARX) d.NU) (.seg (.lit d.M 1) d.NX d.NU),
    .write (.tail grad d.NP) (.tail (.lit d.M 1) d.NP)]

/-- The Mayer part of the gradient, continuous_ocp.hpp:1246-1248, 1340-1342. -/
def addGradMayer (grad : Exp V) : Cmd V :=
  .block [.write (.head grad d.NX) (.head (.lit d.M 1) d.NX),
    .write (.seg grad d.VARX d.NU) (.seg (.lit d.M 1) d.NX d.NU),
    .write (.tail grad d.NP) (.tail (.lit d.M 1) d.NP)]

/-- `cost_gradient`, continuous_ocp.hpp:1211-1249. -/
def ocpCostGradient (var grad : Exp V) : Cmd V :=
  .block [.read grad, .read (.seg var (d.VARX + d.VARU) d.NP),
    .upto d.S fun s => .upto (d.N + 1) fun k =>
      .block [readNode d var (k + s * d.N), .read (.at' (.lit (d.N + 1) 1) k), addGrad d grad (k + s * d.N)],
    .read (.head var d.NX), .read (.seg var d.VARX d.NU), addGradMayer d grad]

/-- The nine blocks added to the Hessian at node `k`, continuous_ocp.hpp:1305-1325. -/
def addHess (hess : Exp V) (k : ℕ) : Cmd V :=
  let P := d.VARX + d.VARU
  let hes : Exp V := .lit d.M d.M
  .block [.write (.block hess (k * d.NX) (k * d.NX) d.NX d.NX) (.corner hes false false d.NX d.NX),
    .write (.block hess (k * d.NX) (k * d.NU + d.VARX) d.NX d.NU) (.block hes 0 d.NX d.NX d.NU),
    .write (.block hess (k * d.NU + d.VARX) (k * d.NX) d.NU d.NX) (.block hes d.NX 0 d.NU d.NX),
    .write (.block hess (k * d.NU + d.VARX) (k * d.NU + d.VARX) d.NU d.NU) (.block hes d.NX d.NX d.NU d.NU),
    .write (.block hess (k * d.NX) P d.NX d.NP) (.block hes 0 (d.NX + d.NU) d.NX d.NP),
    .write (.block hess (k * d.NU + d.VARX) P d.NU d.NP) (.block hes d.NX (d.NX + d.NU) d.NU d.NP),
    .write (.block hess P (k * d.NX) d.NP d.NX) (.block hes (d.NX + d.NU) 0 d.NP d.NX),
    .write (.block hess P (k * d.NU + d.VARX) d.NP d.NU) (.block hes (d.NX + d.NU) d.NX d.NP d.NU),
    .write (.corner hess true true d.NP d.NP) (.corner hes true true d.NP d.NP)]

/-- The Mayer blocks, continuous_ocp.hpp:1352-1366. -/
def addHessMayer (hess : Exp V) : Cmd V :=
  let P := d.VARX + d.VARU
  let hes : Exp V := .lit d.M d.M
  .block [.write (.corner hess false false d.NX d.NX) (.corner hes false false d.NX d.NX),
    .write (.block hess d.VARX d.VARX d.NU d.NU) (.block hes d.NX d.NX d.NU d.NU),
    .write (.corner hess true false d.NP d.NP) (.corner hes true false d.NP d.NP),
    .write (.block hess 0 d.VARX d.NX d.NU) (.block hes 0 d.NX d.NX d.NU),
    .write (.block hess d.VARX 0 d.NU d.NX) (.block hes d.NX 0 d.NU d.NX),
    .write (.block hess 0 P d.NX d.NP) (.block hes 0 (d.NX + d.NU) d.NX d.NP),
    .write (.block hess P 0 d.NP d.NX) (.block hes (d.NX + d.NU) 0 d.NP d.NX),
    .write (.block hess d.VARX P d.NU d.NP) (.block hes d.NX (d.NX + d.NU) d.NU d.NP),
    .write (.block hess P d.VARX d.NP d.NU) (.block hes (d.NX + d.NU) d.NX d.NP d.NU)]

/-- The Mayer term's read of the control, `var.segment<NX>(VARX_SIZE)(i)` for `i < NU`, continuous_ocp.hpp:1334-1335. -/
def readMayerU (var : Exp V) : Cmd V := .upto d.NU fun i => .read (.at' (.seg var d.VARX d.NX) i)

/-- `cost_gradient_hessian`, dense, continuous_ocp.hpp:1252-1367. `setZero` keeps the size. -/
def ocpCostGradientHessian (var grad hess : Exp V) : Cmd V :=
  .block [.read grad, .read hess, .upto d.NP fun i => .read (.at' (.tail var d.NP) i),
    .upto d.S fun s => .upto (d.N + 1) fun k =>
      .block [readNode d var (k + s * d.N), .read (.at' (.lit (d.N + 1) 1) k), addGrad d grad (k + s * d.N),
        addHess d hess (k + s * d.N)],
    .read (.head var d.NX), readMayerU d var, addGradMayer d grad, addHessMayer d hess]

/-- The product with the differentiation matrix: `DX.block<POLY_ORDER + 1, NX>(i * POLY_ORDER, 0) = m_D * lox.block<NX, POLY_ORDER + 1>(0, i *
POLY_ORDER).transpose()`, continuous_ocp.hpp:747-751; `lox` is a map onto the first `NX * NUM_NODES` entries of `var`. -/
def diffProduct (var : Exp V) : Cmd V :=
  .block [.read (.head var (d.NX * d.NN)),
    .upto d.S fun i => .write (.block (.lit d.NN d.NX) (i * d.N) 0 (d.N + 1) d.NX)
      (.prod (.lit (d.N + 1) (d.N + 1)) (.trans (.block (.lit d.NX d.NN) 0 (i * d.N) d.NX (d.N + 1))))]

/-- `equalities`, continuous_ocp.hpp:738-768. -/
def ocpEqualities (var c : Exp V) : Cmd V :=
  .block [diffProduct d var, .upto d.NN fun t =>
    .block [readNode d var t, .read (.seg var (d.VARX + d.VARU) d.NP),
      .write (.seg c (t * d.NX) d.NX) (.block (.trans (.lit d.NN d.NX)) 0 t d.NX 1)]]

/-- `inequalities`, continuous_ocp.hpp:771-784. -/
def ocpInequalities (var g : Exp V) : Cmd V :=
  .upto d.NN fun k =>
    .block [readNode d var k, .read (.seg var (d.VARX + d.VARU) d.NP), .write (.seg g (k * d.NG) d.NG) (.lit d.NG 1)]

/-- `equalities_linearised`, dense, continuous_ocp.hpp:797-876. -/
def ocpEqualitiesLin (var c J : Exp V) : Cmd V :=
  .block [.write J (.lit d.NEQ d.VAR), diffProduct d var,
    .upto d.S fun s => .upto d.N fun i => .upto (d.N + 1) fun j =>
      .write (.block J (s * d.N * d.NX + i * d.NX) (s * d.N * d.NX + j * d.NX) d.NX d.NX) (.lit d.NX d.NX),
    .write (.block J (d.VARX - d.NX) (d.VARX - d.NX * (d.N + 1)) d.NX (d.NX * (d.N + 1)))
      (.block J 0 0 d.NX (d.NX * (d.N + 1))),
    .read (.seg var (d.VARX + d.VARU) d.NP),
    .upto d.NN fun t =>
      .block [readNode d var t, .write (.seg c (t * d.NX) d.NX) (.block (.trans (.lit d.NN d.NX)) 0 t d.NX 1),
        .write (.block J (t * d.NX) (t * d.NX) d.NX d.NX) (.corner (.lit d.NX d.M) false false d.NX d.NX),
        .write (.block J (t * d.NX) (t * d.NU + d.VARX) d.NX d.NU) (.block (.lit d.NX d.M) 0 d.NX d.NX d.NU),
        .write (.block J (t * d.NX) (d.VARX + d.VARU) d.NX d.NP) (.corner (.lit d.NX d.M) false true d.NX d.NP)]]

/-- `_inequalities_linearised_dense`, continuous_ocp.hpp:534-576: nothing for `NUM_INEQ == 0`. -/
def ocpInequalitiesLin (var g J : Exp V) : Cmd V :=
  if d.NINEQ = 0 then .skip else
  .block [.write J (.lit d.NINEQ d.VAR), .read (.seg var (d.VARX + d.VARU) d.NP),
    .upto d.NN fun k =>
      .block [readNode d var k, .write (.seg g (k * d.NG) d.NG) (.lit d.NG 1),
        .write (.block J (k * d.NG) (k * d.NX) d.NG d.NX) (.corner (.lit d.NG d.M) false false d.NG d.NX),
        .write (.block J (k * d.NG) (k * d.NU + d.VARX) d.NG d.NU) (.block (.lit d.NG d.M) 0 d.NX d.NG d.NU),
        .write (.block J (k * d.NG) (d.VARX + d.VARU) d.NG d.NP) (.corner (.lit d.NG d.M) false true d.NG d.NP)]]

/-- The calls of the two linearisations on the parts of `g` and `jac_g`, and the gradient of the Lagrangian, continuous_ocp.hpp:1966-1974,
2108-2115. -/
def ocpLagGradTail (limit s : ℕ) (var lam grad costGrad g J : Exp V) : Cmd V :=
  .block [.pass (.head g d.NEQ) (select limit s d.NEQ 1), .pass (.rows J false d.NEQ) (select limit s d.NEQ d.VAR),
    ocpEqualitiesLin d var (.head g d.NEQ) (.rows J false d.NEQ),
    .pass (.tail g d.NINEQ) (select limit s d.NINEQ 1), .pass (.rows J true d.NINEQ) (select limit s d.NINEQ d.VAR),
    ocpInequalitiesLin d var (.tail g d.NINEQ) (.rows J true d.NINEQ),
    .write grad (.prod (.trans J) (.head lam (d.NEQ + d.NINEQ))), .write grad costGrad, .write grad (.tail lam d.VAR)]

/-- `lagrangian_gradient`, dense, continuous_ocp.hpp:1956-1975. -/
def ocpLagGradient (limit s : ℕ) (var lam grad costGrad g J : Exp V) : Cmd V :=
  .block [ocpCostGradient d var costGrad, ocpLagGradTail d limit s var lam grad costGrad g J]

/-- `lagrangian_gradient_hessian`, dense, continuous_ocp.hpp:2099-2173; the cost scale is 1 or not. -/
def ocpLagGradientHessian (limit s : ℕ) (var lam grad hess costGrad g J : Exp V) : Cmd V :=
  .block [ocpCostGradientHessian d var costGrad hess, ocpLagGradTail d limit s var lam grad costGrad g J,
    .alt (.write hess hess) .skip,
    .upto d.NP fun i => .read (.at' (.tail var d.NP) i),
    .upto d.NN fun k =>
      .block [readNode d var k, .upto d.NX fun n => .read (.at' lam (n + k * d.NX)),
        .upto d.NG fun n => .read (.at' lam (n + k * d.NG + d.NEQ)), addHess d hess k]]
end Ocp

/-! ### SQP -/

/-- Members of `SQPBase` (sqp_base.hpp:129-149), locals of its functions, members of the QP solver. -/
inductive SqpVar
  | H | h | x | lam | lamK | A | al | au | lbx | ubx | lx | ux | lbg | ubg | lagGrad | stepPrev
  /-- `p`, `p_lambda` of `solve`, 573-574 -/
  | dir | dirLam
  /-- `cost_gradient`, `x_step` of `step_size_selection_impl`, 383, 402 -/
  | costGrad | xStep
  /-- `c` and `g` of the violation measures, 428, 433, 455, 463 -/
  | c | g
  /-- `_lag_grad` of `update_linearisation_dense_impl`, 497; `Bs`, `r` of `BFGS_update`, bfgs.hpp:28 -/
  | lagGradNew | Bs | r
  | qp (v : BoxVar)
  deriving DecidableEq

/-- Nominal sizes, continuous_ocp.hpp:168-183. -/
def sqpDecl (d : Dims) : SqpVar → ℕ × ℕ
  | .H => (d.VAR, d.VAR)
  | .h => (d.VAR, 1)
  | .x => (d.VAR, 1)
  | .lam => (dualSize d, 1)
  | .lamK => (dualSize d, 1)
  | .A => (d.NEQ + d.NINEQ, d.VAR)
  | .al => (d.NEQ + d.NINEQ, 1)
  | .au => (d.NEQ + d.NINEQ, 1)
  | .lbx => (d.VAR, 1)
  | .ubx => (d.VAR, 1)
  | .lx => (d.VAR, 1)
  | .ux => (d.VAR, 1)
  | .lbg => (d.NINEQ, 1)
  | .ubg => (d.NINEQ, 1)
  | .lagGrad => (d.VAR, 1)
  | .stepPrev => (d.VAR, 1)
  | .dir => (d.VAR, 1)
  | .dirLam => (dualSize d, 1)
  | .costGrad => (d.VAR, 1)
  | .xStep => (d.VAR, 1)
  | .c => (d.NEQ, 1)
  | .g => (d.NINEQ, 1)
  | .lagGradNew => (d.VAR, 1)
  | .Bs => (d.VAR, 1)
  | .r => (d.VAR, 1)
  | .qp v => boxDecl d.VAR (d.NEQ + d.NINEQ) v

/-- The selected types. -/
def sqpTy (limit s : ℕ) (d : Dims) (v : SqpVar) : Ty := select limit s (sqpDecl d v).1 (sqpDecl d v).2

section Sqp
variable (limit s : ℕ) (d : Dims)
open SqpVar

/-- Constructor of `SQPBase` for a dense problem (`m_H`, `m_A` are resized for sparse problems only), with the constructor of its member
`m_qp_solver`, sqp_base.hpp:72-98. -/
def sqpCtor : Cmd SqpVar :=
  .block [boxCtor qp d.VAR (d.NEQ + d.NINEQ), .fill lbx, .fill ubx, .fill lbg, .fill ubg, .read (.var x), .read (.var lam)]

/-- `constraints_violation_impl`, sqp_base.hpp:423-444. -/
def sqpViolation (y : Exp SqpVar) : Cmd SqpVar :=
  .block [.declare c, ocpEqualities d y (.var c), .declare g, ocpInequalities d y (.var g),
    .read (.sum (.var lbg) (.var g)), .read (.sum (.var g) (.var ubg)), .read (.sum (.var lbx) y), .read (.sum y (.var ubx))]

/-- `max_constraints_violation_impl`, sqp_base.hpp:448-474. -/
def sqpMaxViolation (y : Exp SqpVar) : Cmd SqpVar :=
  .block [if d.NEQ = 0 then .skip else .block [.declare c, ocpEqualities d y (.var c)],
    if d.NINEQ = 0 then .skip else .block [.declare g, ocpInequalities d y (.var g),
      .read (.sum (.var lbg) (.var g)), .read (.sum (.var g) (.var ubg))],
    .read (.sum (.var lbx) y), .read (.sum y (.var ubx))]

/-- `step_size_selection_impl`, sqp_base.hpp:380-419. -/
def sqpLineSearch : Cmd SqpVar :=
  .block [.declare costGrad, .assign costGrad (.var h), sqpViolation d (.var x), .read (.var lamK), ocpCost d (.var x),
    .read (.prod (.trans (.var costGrad)) (.var dir)), .declare xStep,
    .many (.block [.assign xStep (.var dir), .write (.var xStep) (.var x), ocpCost d (.var xStep), sqpViolation d (.var xStep)])]

/-- `linearisation_dense_impl`, sqp_base.hpp:226-239, 309-318. -/
def sqpLinearise : Cmd SqpVar :=
  ocpLagGradientHessian d limit s (.var x) (.var lam) (.var lagGrad) (.var H) (.var h) (.var al) (.var A)

/-- `BFGS_update`, bfgs.hpp:23-52. -/
def sqpBfgs : Cmd SqpVar :=
  .block [.read (.sum (.var lagGradNew) (.var lagGrad)), .declare Bs, .declare r,
    .assign Bs (.prod (.var H) (.var stepPrev)), .read (.prod (.trans (.var stepPrev)) (.var Bs)),
    .read (.prod (.trans (.var stepPrev)) (.sum (.var lagGradNew) (.var lagGrad))),
    .alt (.assign r (.sum (.sum (.var lagGradNew) (.var lagGrad)) (.var Bs))) (.assign r (.sum (.var lagGradNew) (.var lagGrad))),
    .alt (.block [.write (.var H) (.prod (.var Bs) (.trans (.var Bs))), .write (.var H) (.prod (.var r) (.trans (.var r)))]) .skip]

/-- `update_linearisation_dense_impl`, sqp_base.hpp:490-505. -/
def sqpUpdate : Cmd SqpVar :=
  .block [.declare lagGradNew,
    ocpLagGradient d limit s (.var x) (.var lam) (.var lagGradNew) (.var h) (.var al) (.var A),
    sqpBfgs, .assign lagGrad (.var lagGradNew)]

/-- Forming the bounds of the QP, sqp_base.hpp:586-594. -/
def sqpBounds : Cmd SqpVar :=
  .block [.assign al (.var al), .assign au (.var al), .write (.tail (.var al) d.NINEQ) (.var lbg),
    .write (.tail (.var au) d.NINEQ) (.var ubg), .assign lx (.sum (.var lbx) (.var x)), .assign ux (.sum (.var ubx) (.var x))]

/-- The arguments of the QP solver, sqp_base.hpp:550 and box_admm.hpp:85. -/
def sqpQpArgs : QpArgs SqpVar :=
  ⟨.var H, .var h, .var A, .var al, .var au, .var lx, .var ux, .lit d.VAR 1, .lit (d.VAR + (d.NEQ + d.NINEQ)) 1⟩

/-- `solve_qp(p, p_lambda)`, sqp_base.hpp:533-565; `qpIter` is the QP solver's `max_iter`. -/
def sqpSolveQp (qpIter : ℕ) : Cmd SqpVar :=
  .block [boxSolve qp limit s d.VAR (d.NEQ + d.NINEQ) qpIter (sqpQpArgs d),
    .write (.var dir) (.var (qp .x)), .write (.var dirLam) (.var (qp .y))]

/-- Taking the step and the termination test, sqp_base.hpp:617-637, 671-691. -/
def sqpStep : Cmd SqpVar :=
  .block [.assign lamK (.var dirLam), .write (.var dirLam) (.var lam), sqpLineSearch d,
    .write (.var x) (.var dir), .write (.var lam) (.var dirLam), .assign stepPrev (.var dir), sqpMaxViolation d (.var x)]

/-- `solve()` or `solve(x_guess, lam_guess)`, sqp_base.hpp:369-374, 569-698. -/
def sqpSolve (qpIter : ℕ) : Cmd SqpVar :=
  .block [.alt (.block [.assign x (.lit d.VAR 1), .assign lam (.lit (dualSize d) 1)]) .skip,
    .declare dir, .declare dirLam,
    sqpLinearise limit s d, sqpBounds d, sqpSolveQp limit s d qpIter, sqpStep d,
    .many (.block [sqpUpdate limit s d, sqpBounds d, sqpSolveQp limit s d qpIter, sqpStep d])]
end Sqp

end PolyMPC.Storage
