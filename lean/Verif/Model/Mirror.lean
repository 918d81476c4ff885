import Verif.Model.Sqp
import Mathlib.Data.Real.Basic

/-!
# Eigenvalue mirroring of the Hessian

The override `hessian_regularisation_dense_impl` of tests/solvers/sqp/sqp_test_autodiff.cpp:25-46. The decomposition `es` (`Eigen::EigenSolver`) is a parameter: the theorems say
what they assume of its result. Eigenvalues and eigenvectors are their real parts, as in the code. The constant `0.1` is `1/10`.
-/

namespace PolyMPC.Mirror
open Matrix

variable {n : ℕ}

/-- `es.eigenvalues().real()` and `es.eigenvectors().real()` after `es.compute(H)`, sqp_test_autodiff.cpp:32-42. -/
structure Eig (n : ℕ) where
  vals : Fin n → ℝ
  vecs : Matrix (Fin n) (Fin n) ℝ

/-- The new diagonal entry, sqp_test_autodiff.cpp:40. -/
noncomputable def mirrorVal (a : ℝ) : ℝ := if a ≤ 0 then -1 * a + 1 / 10 else a

/-- `minCoeff()`, sqp_test_autodiff.cpp:34. -/
noncomputable def minCoeff [NeZero n] (v : Fin n → ℝ) : ℝ := Finset.univ.inf' Finset.univ_nonempty v

/-- sqp_test_autodiff.cpp:29-46. -/
noncomputable def mirror [NeZero n] (es : Matrix (Fin n) (Fin n) ℝ → Eig n) (H : Matrix (Fin n) (Fin n) ℝ) : Matrix (Fin n) (Fin n) ℝ :=
  let e := es H
  if minCoeff e.vals ≤ 0 then e.vecs * diagonal (fun i => mirrorVal (e.vals i)) * e.vecsᵀ else H

/-- The solver of sqp_test_autodiff.cpp:16-48: `SQPBase` with this regularisation. -/
noncomputable def mirrorEnv [NeZero n] {me mi : ℕ} (prec : Sqp.Precond ℝ n (me + mi)) (qps : Sqp.QPSolver ℝ n (me + mi)) (es : Matrix (Fin n) (Fin n) ℝ → Eig n) (eps : ℝ) (cfg : Sqp.Settings ℝ)
    (prob : Sqp.Problem ℝ n me mi) (bd : Sqp.Bounds ℝ n mi) : Sqp.Env ℝ n me mi prec qps :=
  { Sqp.defaultEnv (prec := prec) (qps := qps) eps cfg prob bd with regularise := mirror es }

end PolyMPC.Mirror
