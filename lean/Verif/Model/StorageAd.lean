import Mathlib.Data.List.Basic
import Verif.Model.Ocp

/-!
# Storage of the automatic differentiation variables

The problem classes hold fixed-size Eigen matrices of automatic differentiation numbers. Their types are modelled as data, with the number of bytes
left to the compiler: a layout is any assignment of sizes in which an aggregate is at least as large as its parts.
-/

namespace PolyMPC.StorageAd
open Ocp (Dims)

/-- C++ types of members: the scalar type, `Eigen::Matrix<e, r, c>` with `n = r * c` entries, `Eigen::AutoDiffScalar<Eigen::Matrix<e, n, 1>>`. -/
inductive CTy
  | scalar
  | mat (e : CTy) (n : ℕ)
  | ad (e : CTy) (n : ℕ)

/-- Numbers of bytes chosen by a compiler; padding is allowed. `AutoDiffScalar` (library) has the two members `m_value`, `m_derivatives`. -/
structure Layout (s : ℕ) where
  bytes : CTy → ℕ
  scalar : bytes .scalar = s
  mat : ∀ e n, n * bytes e ≤ bytes (.mat e n)
  ad : ∀ e n, bytes e + bytes (.mat e n) ≤ bytes (.ad e n)

/-- Bytes without padding. -/
def tightBytes (s : ℕ) : CTy → ℕ
  | .scalar => s
  | .mat e n => n * tightBytes s e
  | .ad e n => tightBytes s e + n * tightBytes s e

/-- The layout without padding. -/
def tight (s : ℕ) : Layout s where
  bytes := tightBytes s
  scalar := rfl
  mat _ _ := le_rfl
  ad _ _ := le_rfl

/-- `check_static_allocation_size` of Eigen (library) for all matrices inside a type: `Size * sizeof(T) <= EIGEN_STACK_ALLOCATION_LIMIT`, no
check for limit 0. -/
def CTy.Accepted {s : ℕ} (limit : ℕ) (L : Layout s) : CTy → Prop
  | .scalar => True
  | .mat e n => (limit = 0 ∨ n * L.bytes e ≤ limit) ∧ e.Accepted limit L
  | .ad e n => (limit = 0 ∨ n * L.bytes e ≤ limit) ∧ e.Accepted limit L

/-- First and second order numbers with `n` derivatives. -/
def ad1 (n : ℕ) : CTy := .ad .scalar n
def ad2 (n : ℕ) : CTy := .ad (ad1 n) n

/-- Members of a dense `ProblemBase`, nlproblem.hpp:94-113, and locals of its dense `lagrangian_gradient_hessian`, nlproblem.hpp:640-642; `n`, `e`, `i`
are `VAR_SIZE`, `NUM_EQ`, `NUM_INEQ`. -/
def nlpObjects (n e i : ℕ) : List CTy :=
  [.mat (ad1 n) n, .mat (ad1 n) n, .mat (ad1 n) e, .mat (ad1 n) i, ad1 n, .mat (ad2 n) n, ad2 n,
    .mat .scalar (n * n), .mat (ad2 n) e, .mat (ad2 n) i]

/-- Members of `ContinuousOCP` of either matrix format, continuous_ocp.hpp:123-165, and locals of `lagrangian_gradient_hessian`,
continuous_ocp.hpp:2042-2043, 2122-2123. -/
def ocpObjects (d : Dims) : List CTy :=
  [.mat (ad1 d.M) d.NX, .mat (ad1 d.M) d.NX, .mat (ad1 d.M) d.NU, .mat (ad1 d.M) d.NP, .mat (ad1 d.M) d.NG, ad1 d.M,
    .mat (ad2 d.M) d.NX, .mat (ad2 d.M) d.NU, .mat (ad2 d.M) d.NP, .mat (ad2 d.M) d.NG, ad2 d.M,
    .mat .scalar ((d.N + 1) * (d.N + 1)), .mat .scalar (d.N + 1), .mat .scalar (d.N + 1), .mat .scalar d.NN]

end PolyMPC.StorageAd
