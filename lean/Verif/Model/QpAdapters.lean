import Verif.Model.AdmmSparse
import Verif.Model.Sqp
import Verif.Spec.RowQP

/-!
# Adapters to external QP solvers (src/solvers/osqp_interface.hpp, src/solvers/qpmad_interface.hpp)

The external solvers themselves are parameters. Of OsqpEigen the model keeps what the adapter depends on: the problem data are collected
in a `data()` object whose matrices can be set only once; `initSolver()` does nothing if it has been called before; the `update…` functions do
nothing before; all these functions report such cases by returning `false`, which the adapter ignores. The settings are copied into the
workspace by `initSolver()`.
-/

namespace PolyMPC.Osqp
open Matrix PolyMPC.Spec PolyMPC.QPBase PolyMPC.Sparse PolyMPC.AdmmSparse

variable {K : Type} [Field K] {N M : ℕ}

/-- The problem held by OSQP's workspace. -/
structure Prob (K : Type) (N M : ℕ) where
  P : Csc K
  q : Fin N → K
  A : Csc K
  l : Fin (M + N) → K
  u : Fin (M + N) → K

/-- The values of `info->status_val` named in the adapter; `other` are all the others. -/
inductive OsqpStatus where
  | solved | solvedInaccurate | primalInfeasible | dualInfeasible | maxIterReached | unsolved | other
  deriving DecidableEq, Repr

/-- What the adapter reads after `solveProblem()`. -/
structure Result (K : Type) (N M : ℕ) where
  x : Fin N → K
  y : Fin (M + N) → K
  iter : ℤ
  priRes : K
  duaRes : K
  rhoUpdates : ℤ
  rhoEstimate : K
  status : OsqpStatus

/-- OSQP: `Cfg` are its settings, `Hid` the rest of its workspace. -/
structure Engine (K : Type) (N M : ℕ) where
  Cfg : Type
  Hid : Type
  start : Cfg → Prob K N M → Hid
  update : Hid → Prob K N M → Hid
  guess : Hid → (Fin N → K) → (Fin (M + N) → K) → Hid
  run : Cfg → Hid → Prob K N M → Hid × Result K N M

/-- The `data()` object of OsqpEigen. -/
structure Data (K : Type) (N M : ℕ) where
  P : Option (Csc K)
  q : Fin N → K
  A : Option (Csc K)
  l : Fin (M + N) → K
  u : Fin (M + N) → K

/-- An `OSQP` object, osqp_interface.hpp:169-173 with the members of `QPBase`. -/
structure Obj (E : Engine K N M) where
  x : Fin N → K
  y : Fin (M + N) → K
  info : Info K
  mA : Csc K
  /-- `osqp_solver.settings()` -/
  cfg : E.Cfg
  /-- `osqp_solver.data()` -/
  data : Data K N M
  /-- the workspace: the settings at the time of `initSolver()`, the problem, the rest; `none` before `initSolver()` -/
  work : Option (E.Cfg × Prob K N M × E.Hid)

/-- The settings of a call: those passed on by `set_osqp_settings` (osqp_interface.hpp:212-238) and the two flags. -/
structure Opts (E : Engine K N M) where
  cfg : E.Cfg
  warm : Bool
  reuse : Bool

/-- The bounds, osqp_interface.hpp:55-58, 113-116. -/
def stack (a : Fin M → K) (b : Fin N → K) : Fin (M + N) → K := Fin.addCases a b

variable {E : Engine K N M}

/-- The branch with `warm_start`, osqp_interface.hpp:62-65, 121-124. -/
def warm (p : SparseQP K N M) (o : Obj E) : Obj E :=
  { o with work := o.work.map fun (c, _, h) =>
      let pr : Prob K N M := ⟨p.H, p.h, o.mA, stack p.Alb p.xlb, stack p.Aub p.xub⟩
      (c, pr, E.update h pr) }

/-- `setHessianMatrix`, `setGradient`, `setLinearConstraintsMatrix`, `setLowerBound`, `setUpperBound`, osqp_interface.hpp:71-77, 132-138. -/
def setData (p : SparseQP K N M) (o : Obj E) : Obj E :=
  { o with data := ⟨o.data.P.or (some p.H), p.h, o.data.A.or (some o.mA), stack p.Alb p.xlb, stack p.Aub p.xub⟩ }

/-- `initSolver`, osqp_interface.hpp:79, 140. -/
def initSolver (o : Obj E) : Obj E :=
  match o.work, o.data.P, o.data.A with
  | none, some P, some A =>
    let pr : Prob K N M := ⟨P, o.data.q, A, o.data.l, o.data.u⟩
    { o with work := some (o.cfg, pr, E.start o.cfg pr) }
  | _, _, _ => o

/-- `setWarmStart`, osqp_interface.hpp:127, 141; not called in the overload without guesses. -/
def setGuess (g : Option ((Fin N → K) × (Fin (M + N) → K))) (o : Obj E) : Obj E :=
  match g with
  | none => o
  | some (x, y) => { o with work := o.work.map fun (c, pr, h) => (c, pr, E.guess h x y) }

/-- The switch, osqp_interface.hpp:92-101, 154-163. -/
def mapStatus : OsqpStatus → Status
  | .solved => .SOLVED
  | .solvedInaccurate => .SOLVED
  | .primalInfeasible => .INFEASIBLE
  | .dualInfeasible => .INFEASIBLE
  | .maxIterReached => .MAX_ITER_EXCEEDED
  | .unsolved => .UNSOLVED
  | .other => .UNSOLVED

/-- `solveProblem` and the copies of its results, osqp_interface.hpp:80-101, 142-163. `none`: there is no workspace, so that null pointers are
read. -/
def finish (o : Obj E) : Option (Obj E × Status) :=
  o.work.map fun (c, pr, h) =>
    let (h', r) := E.run c h pr
    let info : Info K := { o.info with
      iter := r.iter, resPrim := r.duaRes, rhoUpdates := r.rhoUpdates, rhoEstimate := r.rhoEstimate, status := mapStatus r.status }
    ({ o with x := r.x, y := r.y, info := info, work := some (c, pr, h') }, mapStatus r.status)

/-- `solve_impl`, osqp_interface.hpp:46-102 (`g = none`) and 104-164 (with guesses). -/
def solve (opt : Opts E) (p : SparseQP K N M) (g : Option ((Fin N → K) × (Fin (M + N) → K))) (o : Obj E) : Option (Obj E × Status) :=
  (constructA opt.reuse N M p.A o.mA).bind fun mA =>
    let o1 := { o with cfg := opt.cfg, mA := mA }
    let o2 := if opt.warm then warm p o1 else initSolver (setData p o1)
    finish (setGuess g o2)

end PolyMPC.Osqp

namespace PolyMPC.Qpmad
open Matrix PolyMPC.Spec PolyMPC.QPBase

variable {K : Type} [Field K] {N M : ℕ}

/-- The values of `ReturnStatus` named in the adapter; `other` are all the others. -/
inductive RetStatus where
  | ok | maxIter | other
  deriving DecidableEq, Repr

/-- qpmad: its memory and `solve`, which gets the primal vector as an input and an output. -/
structure Engine (K : Type) (N M : ℕ) where
  Cfg : Type
  Mem : Type
  run : Cfg → Mem → QP K N M → (Fin N → K) → Mem × (Fin N → K) × RetStatus

/-- A `QPMAD` object: the members of `QPBase` that are read from outside, and the solver. -/
structure Obj (E : Engine K N M) where
  x : Fin N → K
  y : Fin M ⊕ Fin N → K
  info : Info K
  mem : E.Mem

variable {E : Engine K N M}

/-- `solve_impl`, qpmad_interface.hpp:51-89. -/
def solve (cfg : E.Cfg) (qp : QP K N M) (o : Obj E) : Obj E × Status :=
  let (mem, x, s) := E.run cfg o.mem qp o.x
  let o1 := { o with x := x, mem := mem }
  match s with
  | .ok => ({ o1 with info := { o1.info with status := .SOLVED } }, .SOLVED)
  | .maxIter => ({ o1 with info := { o1.info with status := .MAX_ITER_EXCEEDED } }, .MAX_ITER_EXCEEDED)
  | .other => (o1, .UNSOLVED)

/-- `solve_impl` with guesses, qpmad_interface.hpp:91-112; the guess of the multipliers is not read. -/
def solveFrom (cfg : E.Cfg) (qp : QP K N M) (xg : Fin N → K) (_yg : Fin M ⊕ Fin N → K) (o : Obj E) : Obj E × Status :=
  solve cfg qp { o with x := xg }

/-- The solver as used by `SQPBase::solve_qp`, sqp_base.hpp:550-559. -/
def qpSolver (E : Engine K N M) (cfg : E.Cfg) : Sqp.QPSolver K N M where
  Mem := Obj E
  solve o qp := let o' := (solve cfg qp o).1; (o', o'.x, o'.y, o'.info.iter)

end PolyMPC.Qpmad
