import Verif.Spec.QP

/-!
# Common part of the QP solvers

Model of `/repo/src/solvers/qp_base.hpp`. The scalar type is an ordered field.
The dual vector (`qp_dual_t`, size `M + N`) is indexed by `Fin M ⊕ Fin N`: `Sum.inl` is `head<M>()`, `Sum.inr` is
`tail<N>()`.
-/

namespace PolyMPC.QPBase
open Matrix PolyMPC.Spec

variable {K : Type*} [Field K] [LinearOrder K] [IsStrictOrderedRing K] {N M : ℕ}

/-- `qp_solver_settings_t`, qp_base.hpp:17-38 (fields read by ADMM and boxADMM on dense data). -/
structure Settings (K : Type*) where
  epsRel : K
  epsAbs : K
  maxIter : ℤ
  rho : K
  sigma : K
  alpha : K
  checkTermination : ℤ
  adaptiveRho : Bool
  adaptiveRhoTolerance : K
  adaptiveRhoInterval : ℤ

/-- Default settings, qp_base.hpp:21-37. -/
def Settings.default : Settings K where
  epsRel := 1 / 1000
  epsAbs := 1 / 1000
  maxIter := 1000
  rho := 1 / 10
  sigma := 1 / 1000000
  alpha := 1
  checkTermination := 25
  adaptiveRho := false
  adaptiveRhoTolerance := 5
  adaptiveRhoInterval := 25

/-- `status_t`, qp_base.hpp:55-62. -/
inductive Status where
  | SOLVED | MAX_ITER_EXCEEDED | UNSOLVED | UNINITIALIZED | INFEASIBLE | INCONSISTENT
  deriving DecidableEq, Repr

/-- `qp_solver_info_t`, qp_base.hpp:64-72. -/
structure Info (K : Type*) where
  status : Status
  iter : ℤ
  rhoUpdates : ℤ
  rhoEstimate : K
  resPrim : K
  resDual : K

/-- Initial info, qp_base.hpp:66-71. -/
def Info.default : Info K :=
  { status := .UNINITIALIZED, iter := 0, rhoUpdates := 0, rhoEstimate := 0, resPrim := 1, resDual := 1 }

/-- `regulariser<double>::value`, qp_base.hpp:80-82 (`10e-10`), used as `DIV_BY_ZERO_REGUL`, line 126. -/
def divByZeroRegul : K := 1 / 1000000000

/-- `LOOSE_BOUNDS_THRESH`, qp_base.hpp:124. -/
def looseBoundsThresh : K := 10000000000

/-- `EQ_TOL`, qp_base.hpp:125. -/
def eqTol : K := 1 / 10000

/-- `constraint_type`, qp_base.hpp:132-136. -/
inductive ConstraintType where
  | INEQUALITY_CONSTRAINT | EQUALITY_CONSTRAINT | LOOSE_BOUNDS
  deriving DecidableEq, Repr

/-- Body of both loops in `parse_constraints_bounds`, qp_base.hpp:203-208 and 214-219. -/
def classify (lb ub : K) : ConstraintType :=
  if lb < -looseBoundsThresh ∧ ub > looseBoundsThresh then .LOOSE_BOUNDS
  else if ub - lb < eqTol then .EQUALITY_CONSTRAINT
  else .INEQUALITY_CONSTRAINT

/-- `constr_type` after `parse_constraints_bounds`, qp_base.hpp:201-209. -/
def parseConstr (Alb Aub : Fin M → K) : Fin M → ConstraintType := fun i => classify (Alb i) (Aub i)

/-- `box_constr_type` after `parse_constraints_bounds`, qp_base.hpp:212-220. -/
def parseBox (xlb xub : Fin N → K) : Fin N → ConstraintType := fun i => classify (xlb i) (xub i)

/-- `head<M>()` of a dual vector. -/
def headM (y : Fin M ⊕ Fin N → K) : Fin M → K := fun i => y (Sum.inl i)

/-- `tail<N>()` of a dual vector. -/
def tailN (y : Fin M ⊕ Fin N → K) : Fin N → K := fun i => y (Sum.inr i)

/-- `primal_residual_impl`, qp_base.hpp:240-244. -/
def primalResidual (A : Matrix (Fin M) (Fin N) K) (x : Fin N → K) (b : Fin M → K) : K :=
  infNorm (A *ᵥ x - b)

/-- `dual_residual_impl`, qp_base.hpp:247-252. -/
def dualResidual (H : Matrix (Fin N) (Fin N) K) (h : Fin N → K) (A : Matrix (Fin M) (Fin N) K) (x : Fin N → K)
    (y : Fin M ⊕ Fin N → K) : K :=
  infNorm (H *ᵥ x + h + Aᵀ *ᵥ headM y + tailN y)

end PolyMPC.QPBase
