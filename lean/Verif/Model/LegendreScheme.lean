import Verif.Model.PolyMath
import Verif.Model.Chebyshev
import Mathlib.Data.List.Sort

/-!
# Legendre-Gauss-Lobatto collocation scheme

Model of the constructor of `Legendre` in `src/polynomials/legendre.hpp` and of its `integrate`. Scalars are real numbers. Two pieces of
Eigen are external: `poly_eval` is evaluation of the polynomial with the given coefficients, and `PolynomialSolver` is a parameter `rf`
(the real parts of the computed roots). `std::sort` is sorting. The constructor does not
call `compute_galerkin_tensor` (122), so `getGalerkinTensor` returns a tensor that was never written.
-/

namespace PolyMPC.Lgl
open PolyMPC.PolyMath

/-- `Eigen::poly_eval`. -/
noncomputable def polyEval {n : ℕ} (c : Fin n → ℝ) (t : ℝ) : ℝ := ∑ i, c i * t ^ i.val

/-- `LN_dot` after the clean-up loop, legendre.hpp:133-141: entries below `N` which are at most `eps` in modulus become zero. -/
noncomputable def lnDot (eps : ℝ) {N : ℕ} (L : Fin (N + 1) → ℝ) : Fin (N + 1) → ℝ :=
  fun i => if i.val < N ∧ |polyDiff L i| ≤ eps then 0 else polyDiff L i

/-- `compute_nodes`, legendre.hpp:128-154. -/
noncomputable def computeNodes (eps : ℝ) (N : ℕ) (rf : (Fin N → ℝ) → Fin (N - 1) → ℝ) : Option (Fin (N + 1) → ℝ) :=
  (computeBasis eps N).map fun L =>
    let q : Fin N → ℝ := fun i => lnDot eps (L (Fin.last N)) i.castSucc
    let l := (-1 : ℝ) :: (List.ofFn (rf q) ++ [1])
    fun i => (l.insertionSort (· ≤ ·)).getD i.val 0

/-- `compute_diff_matrix`, legendre.hpp:159-179, from the basis and the nodes. -/
noncomputable def diffMatrix {N : ℕ} (L : Fin (N + 1) → Fin (N + 1) → ℝ) (x : Fin (N + 1) → ℝ) :
    Matrix (Fin (N + 1)) (Fin (N + 1)) ℝ := Matrix.of fun i j =>
  if i ≠ j then polyEval (L (Fin.last N)) (x i) / polyEval (L (Fin.last N)) (x j) * (1 / (x i - x j))
  else if i.val = N then -(((N + 1) * N : ℕ) : ℝ) / 4
  else if i.val = 0 then (((N + 1) * N : ℕ) : ℝ) / 4
  else 0

/-- `compute_quad_weights`, legendre.hpp:184-197; `compute_int_weights` returns the same (201-204). -/
noncomputable def quadWeights {N : ℕ} (L : Fin (N + 1) → Fin (N + 1) → ℝ) (x : Fin (N + 1) → ℝ) (i : Fin (N + 1)) : ℝ :=
  2 / ((N * (N + 1) : ℕ) : ℝ) / polyEval (L (Fin.last N)) (x i) ^ 2

/-- `compute_norm_factors`, legendre.hpp:209-218. -/
noncomputable def normFactors (N : ℕ) (k : Fin (N + 1)) : ℝ := if k.val = N then (N : ℝ) / 2 else (2 * k.val + 1) / 2

/-- The data members of a `Legendre` object, legendre.hpp:86-94. -/
structure Scheme (N : ℕ) where
  basis : Fin (N + 1) → Fin (N + 1) → ℝ
  nodes : Fin (N + 1) → ℝ
  D : Matrix (Fin (N + 1)) (Fin (N + 1)) ℝ
  weights : Fin (N + 1) → ℝ
  factors : Fin (N + 1) → ℝ

/-- The constructor, legendre.hpp:110-123. -/
noncomputable def construct (eps : ℝ) (N : ℕ) (rf : (Fin N → ℝ) → Fin (N - 1) → ℝ) : Option (Scheme N) :=
  (computeBasis eps N).bind fun L => (computeNodes eps N rf).map fun x =>
    ⟨L, x, diffMatrix L x, quadWeights L x, normFactors N⟩

/-- `eval(arg, n)`, legendre.hpp:51, 105. -/
noncomputable def Scheme.eval {N : ℕ} (S : Scheme N) (t : ℝ) (n : Fin (N + 1)) : ℝ := polyEval (S.basis n) t

/-- `integrate`, legendre.hpp:223-234. -/
noncomputable def Scheme.integrate {N : ℕ} (S : Scheme N) (f : ℝ → ℝ) (t0 tf : ℝ) : ℝ :=
  (tf - t0) / 2 * ∑ i, f ((tf - t0) / 2 * S.nodes i + (tf + t0) / 2) * S.weights i

/-- The tensor `compute_galerkin_tensor` would store, legendre.hpp:266-285. -/
noncomputable def Scheme.galerkin {N : ℕ} (S : Scheme N) (i j k : Fin (N + 1)) : ℝ :=
  S.factors k * ∑ n, S.eval (S.nodes n) i * S.eval (S.nodes n) j * S.eval (S.nodes n) k * S.weights n

/-- What `Projection` takes from a Legendre object (projection.hpp:31-33, 50, 63); it only evaluates basis functions up to `N`. -/
noncomputable def Scheme.toBasis {N : ℕ} (S : Scheme N) : PolyMPC.Cheb.Basis N :=
  ⟨S.nodes, S.weights, S.factors, fun t n => if h : n < N + 1 then S.eval t ⟨n, h⟩ else 0⟩

end PolyMPC.Lgl
