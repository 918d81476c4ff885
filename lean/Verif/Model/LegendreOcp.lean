import Verif.Model.Ocp
import Verif.Model.LegendreScheme

/-!
# `ContinuousOCP` with Legendre collocation

`ContinuousOCP` takes its collocation data from the static functions `compute_diff_matrix`, `compute_nodes` and `compute_int_weights` of its parameter `Approximation` (continuous_ocp.hpp:162-164).
`Spline` forwards them to the polynomial class (splines.hpp:42-44), so `Spline<Legendre<N>, S>` is a valid argument.
-/

namespace PolyMPC.Ocp

/-- The collocation data with the Legendre scheme, continuous_ocp.hpp:162-164, splines.hpp:42-44, legendre.hpp:128-204. -/
noncomputable def legApprox {N : ℕ} (S : Lgl.Scheme N) : Approx ℝ where
  D i j := if h : i < N + 1 ∧ j < N + 1 then S.D ⟨i, h.1⟩ ⟨j, h.2⟩ else 0
  nodes i := if h : i < N + 1 then S.nodes ⟨i, h⟩ else 0
  w i := if h : i < N + 1 then S.weights ⟨i, h⟩ else 0

end PolyMPC.Ocp
