import Mathlib.Analysis.SpecialFunctions.Trigonometric.Basic
import Mathlib.Analysis.SpecialFunctions.Trigonometric.Inverse
import Mathlib.LinearAlgebra.Matrix.Notation

/-!
# Chebyshev pseudospectral scheme and orthogonal projection

Model of `src/polynomials/ebyshev.hpp` and `src/polynomials/projection.hpp`. Scalars are real numbers; `N` is `PolyOrder`.
The source needs `N ≥ 1` (the type of the temporary in `compute_int_weights` has `N - 1` rows and nodes divide by `N`).
-/

namespace PolyMPC.Cheb
open Real

/-- The angles `theta`, ebyshev.hpp:126-127. -/
noncomputable def theta (N : ℕ) (i : Fin (N + 1)) : ℝ := i.val * (π / N)

/-- `compute_nodes`, ebyshev.hpp:113-117. -/
noncomputable def nodes (N : ℕ) (i : Fin (N + 1)) : ℝ := cos (i.val * (π / N))

/-- The vector `c` of `compute_diff_matrix`, ebyshev.hpp:203-204. -/
noncomputable def cVec (N : ℕ) (i : Fin (N + 1)) : ℝ := (-1) ^ i.val * (if i.val = 0 ∨ i.val = N then 2 else 1)

/-- The matrix `Dn`, ebyshev.hpp:206-210. -/
noncomputable def Dn (N : ℕ) : Matrix (Fin (N + 1)) (Fin (N + 1)) ℝ := Matrix.of fun i j =>
  (cVec N i * (cVec N j)⁻¹) * (nodes N i - nodes N j + if i = j then 1 else 0)⁻¹

/-- `compute_diff_matrix`, ebyshev.hpp:200-214: the row sums are subtracted on the diagonal. -/
noncomputable def diffMatrix (N : ℕ) : Matrix (Fin (N + 1)) (Fin (N + 1)) ℝ :=
  Dn N - Matrix.diagonal fun i => ∑ j, Dn N i j

/-- The loop `v -= 2/(4k²-1) cos(2kθ)`, `k = 1..last`, started from `v`, ebyshev.hpp:138-142 and 150-154, for one angle. -/
noncomputable def ccLoop (θ : ℝ) (last : ℕ) (v : ℝ) : ℝ :=
  (List.range last).foldl (fun v k => v - 2 / (4 * ((k + 1 : ℕ) : ℝ) ^ 2 - 1) * cos (2 * ((k + 1 : ℕ) : ℝ) * θ)) v

/-- `compute_int_weights` (Clenshaw-Curtis), ebyshev.hpp:123-159. -/
noncomputable def intWeights (N : ℕ) (i : Fin (N + 1)) : ℝ :=
  if N % 2 = 0 then
    if i.val = 0 ∨ i.val = N then 1 / ((N : ℝ) ^ 2 - 1)
    else 2 / N * (ccLoop (theta N i) (N / 2 - 1) 1 - cos (N * theta N i) / ((N : ℝ) ^ 2 - 1))
  else
    if i.val = 0 ∨ i.val = N then 1 / (N : ℝ) ^ 2
    else 2 / N * ccLoop (theta N i) ((N - 1) / 2) 1

/-- `compute_quad_weights`, ebyshev.hpp:164-169. For `N ≥ 1` the two halvings hit different entries. -/
noncomputable def quadWeights (N : ℕ) (i : Fin (N + 1)) : ℝ :=
  π / N * (if i.val = 0 ∨ i.val = N then 1 / 2 else 1)

/-- `compute_norm_factors`, ebyshev.hpp:174-179: only the first factor is halved. -/
noncomputable def normFactors (N : ℕ) (i : Fin (N + 1)) : ℝ := 2 / π * (if i.val = 0 then 1 / 2 else 1)

/-- `eval(arg, n)` forwarding to `Tn`, ebyshev.hpp:60, 93. -/
noncomputable def evalT (x : ℝ) (n : ℕ) : ℝ := cos (n * arccos x)

/-- `integrate`, ebyshev.hpp:184-195. -/
noncomputable def integrate (N : ℕ) (f : ℝ → ℝ) (t0 tf : ℝ) : ℝ :=
  (tf - t0) / 2 * ∑ i, f ((tf - t0) / 2 * nodes N i + (tf + t0) / 2) * intWeights N i

/-- What `Projection` takes from its `Basis` parameter, projection.hpp:31-33, 50, 63: nodes, quadrature weights,
normalisation factors and the evaluation of basis function `n`. -/
structure Basis (N : ℕ) where
  nodes : Fin (N + 1) → ℝ
  weights : Fin (N + 1) → ℝ
  factors : Fin (N + 1) → ℝ
  eval : ℝ → ℕ → ℝ

/-- The Chebyshev basis object. -/
noncomputable def chebBasis (N : ℕ) : Basis N := ⟨nodes N, quadWeights N, normFactors N, evalT⟩

/-- `Projection::project`, projection.hpp:39-54. -/
noncomputable def project {N : ℕ} (B : Basis N) (f : ℝ → ℝ) (a b : ℝ) (n : Fin (N + 1)) : ℝ :=
  B.factors n * ∑ i, f ((b - a) / 2 * B.nodes i + (b + a) / 2) * B.eval (B.nodes i) n.val * B.weights i

/-- `Projection::eval`, projection.hpp:57-66, with the interval remembered from `project`. -/
noncomputable def projEval {N : ℕ} (B : Basis N) (coeff : Fin (N + 1) → ℝ) (a b arg : ℝ) : ℝ :=
  ∑ i, coeff i * B.eval ((arg - (b + a) / 2) / ((b - a) / 2)) i.val

end PolyMPC.Cheb
