import Verif.Model.SqpSparse

/-!
# The SQP solver with its default QP solver

`SQPBase` (src/solvers/sqp_base.hpp) uses `boxADMM` and no preconditioner unless told otherwise (sqp_base.hpp:66-68); its constructor overwrites some of the settings of the
QP solver. `SqpSparse.boxQps` is the QP solver.
-/

namespace PolyMPC.Sqp
open PolyMPC.Spec

/-- The settings of the QP solver after the constructor of `SQPBase`, sqp_base.hpp:83-90; the others are the defaults (qp_base.hpp:21-37). -/
def qpSettings {K : Type*} [Field K] : QPBase.Settings K where
  epsRel := 1 / 10000
  epsAbs := 1 / 10000
  maxIter := 100
  rho := 1 / 10
  sigma := 1 / 1000000
  alpha := 1
  checkTermination := 10
  adaptiveRho := true
  adaptiveRhoTolerance := 5
  adaptiveRhoInterval := 50

/-- `SQPBase` with the defaults for the QP solver and the preconditioner. `lin` and `both`: its decomposition, `sq`: `sqrt`, `eps`: machine epsilon. -/
noncomputable def boxEnv {n me mi : ℕ} (both : Bool)
    (lin : BoxAdmm.KktMat ℝ n (me + mi) → (BoxAdmm.KktIdx n (me + mi) → ℝ) → (BoxAdmm.KktIdx n (me + mi) → ℝ)) (sq : ℝ → ℝ)
    (qcfg : QPBase.Settings ℝ) (eps : ℝ) (cfg : Settings ℝ) (prob : Problem ℝ n me mi) (bd : Bounds ℝ n mi) :
    Env ℝ n me mi (identityPrecond ℝ n (me + mi)) (SqpSparse.boxQps both lin sq qcfg) :=
  defaultEnv eps cfg prob bd

/-- ADMM (admm.hpp) as the QP solver of `SQPBase`, called without a guess (qp_base.hpp:161-166, admm.hpp:104-109), see `SqpSparse.boxQps`. -/
def admmQps {K : Type*} [Field K] [LinearOrder K] [IsStrictOrderedRing K] {N M : ℕ} (both : Bool) (lin : Admm.KktMat K N M → (Admm.KktIdx N M → K) → (Admm.KktIdx N M → K)) (sq : K → K)
    (cfg : QPBase.Settings K) : QPSolver K N M where
  Mem := Admm.State K N M
  solve mem qp := match Admm.solve both lin sq cfg qp 0 0 mem with
    | some s => (s, s.x, s.y, s.info.iter)
    | none => (mem, mem.x, mem.y, mem.info.iter)

end PolyMPC.Sqp
