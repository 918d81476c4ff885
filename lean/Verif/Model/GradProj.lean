import Mathlib.Data.Matrix.Mul
import Mathlib.LinearAlgebra.Matrix.Notation
import Mathlib.Data.Real.Basic
import Mathlib.Tactic.Ring

/-!
# The projected gradient prototype

`GradProj` in src/solvers/trust_region_tests/gradproj_test.cpp:12-89 is announced to minimise `0.5 x'Hx + h'x` over a box (5-9).
The data `H`, `h`, `l`, `u` are public members; here they are fields. The class has two variables, the model any number.
Arithmetic is exact. Printing is left out. The line search has no iteration limit: it is cut off after `fuel` trials, and `none` stands
for a search that is still running.
-/

namespace PolyMPC.GradProj
open Matrix

/-- The public members, gradproj_test.cpp:16-18. -/
structure Problem (n : ℕ) where
  H : Matrix (Fin n) (Fin n) ℝ
  h : Fin n → ℝ
  l : Fin n → ℝ
  u : Fin n → ℝ

variable {n : ℕ}

/-- `GradProj()`, gradproj_test.cpp:19-26. -/
noncomputable def Problem.default : Problem 2 := ⟨!![10, 0; 0, 1 / 10], ![-1, -2], ![-1, -1], ![1, 1]⟩

/-- `f`, gradproj_test.cpp:28-31. -/
noncomputable def Problem.f (q : Problem n) (x : Fin n → ℝ) : ℝ := 1 / 2 * (x ⬝ᵥ q.H *ᵥ x) + q.h ⬝ᵥ x

/-- `grad_f`, gradproj_test.cpp:33-38. -/
noncomputable def Problem.grad (q : Problem n) (x : Fin n → ℝ) : Fin n → ℝ := q.H *ᵥ x + q.h

/-- `box_projection`, gradproj_test.cpp:83-86. -/
noncomputable def boxProjection (x l u : Fin n → ℝ) : Fin n → ℝ := fun i => min (max (x i) (l i)) (u i)

/-- `p`, gradproj_test.cpp:66-68: the box projection is applied to the step, not to the new point. -/
noncomputable def Problem.p (q : Problem n) (x : Fin n → ℝ) (alpha : ℝ) : Fin n → ℝ := boxProjection (alpha • q.grad x) q.l q.u

/-- The search, gradproj_test.cpp:62-79, with `beta = 0.3`, `c = 1e-5` (59-60). -/
noncomputable def Problem.search (q : Problem n) (x : Fin n → ℝ) : ℕ → ℝ → Option (Fin n → ℝ)
  | 0, _ => none
  | fuel + 1, alpha =>
    let xStep := x - q.p x alpha
    if q.f xStep ≤ q.f x - alpha * (1 / 100000) * (q.grad x ⬝ᵥ (xStep - x)) then some xStep else q.search x fuel (3 / 10 * alpha)

/-- One pass of the outer loop, gradproj_test.cpp:47-81, with `alpha = 0.9` (58). -/
noncomputable def Problem.iter (q : Problem n) (fuel : ℕ) (x : Fin n → ℝ) : Option (Fin n → ℝ) := q.search x fuel (9 / 10)

/-- The outer loop with `k` passes left. -/
noncomputable def Problem.loop (q : Problem n) (fuel : ℕ) : ℕ → (Fin n → ℝ) → Option (Fin n → ℝ)
  | 0, x => some x
  | k + 1, x => (q.iter fuel x).bind (q.loop fuel k)

/-- `solve(x0)`, gradproj_test.cpp:40-81: 100 passes, no test for convergence. -/
noncomputable def Problem.solve (q : Problem n) (fuel : ℕ) (x0 : Fin n → ℝ) : Option (Fin n → ℝ) := q.loop fuel 100 x0

end PolyMPC.GradProj
