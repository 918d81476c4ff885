import Mathlib.Analysis.Real.Sqrt
import Mathlib.LinearAlgebra.Matrix.PosDef
import Mathlib.Algebra.Order.Star.Real

/-!
# The trust-region prototype, src/solvers/trust_region_tests/trust_region_test.cpp

The loop of the test (109-215) as functions of the problem object `prob` and of the Cholesky decomposition, both parameters. Vectors have any number of
components instead of two. Arithmetic is exact; a division by zero is the outcome `none`. Printing is left out. The member `Rosenbrock` is one possible
problem; `SimpleQP` (72-107) is `Objective.simple`, whose bounds `l`, `u` nothing reads.
-/

namespace PolyMPC.TrustRegion
open Matrix

variable {n : ℕ}

/-- What the loop calls on `prob`: `hessian`, `gradient` and `operator()`, trust_region_test.cpp:38-67, 89-105. -/
structure Objective (n : ℕ) where
  f : (Fin n → ℝ) → ℝ
  grad : (Fin n → ℝ) → Fin n → ℝ
  hess : (Fin n → ℝ) → Matrix (Fin n) (Fin n) ℝ

/-- `SimpleQP`, trust_region_test.cpp:72-107. -/
noncomputable def Objective.simple : Objective 2 where
  f x := 1 / 2 * (x ⬝ᵥ !![10, 0; 0, 1 / 10] *ᵥ x) + ![-1, -2] ⬝ᵥ x
  grad x := !![10, 0; 0, 1 / 10] *ᵥ x + ![-1, -2]
  hess _ := !![10, 0; 0, 1 / 10]

/-- `Eigen::LLT`: `info() == Success`, `solve(b)` and `matrixL().solve(b)` after `compute(M)`. -/
structure Llt (n : ℕ) where
  ok : Matrix (Fin n) (Fin n) ℝ → Bool
  solve : Matrix (Fin n) (Fin n) ℝ → (Fin n → ℝ) → Fin n → ℝ
  lsolve : Matrix (Fin n) (Fin n) ℝ → (Fin n → ℝ) → Fin n → ℝ

/-- `norm()`. -/
noncomputable def norm (p : Fin n → ℝ) : ℝ := Real.sqrt (p ⬝ᵥ p)

/-- `B + lambda * B.Identity()`. -/
def shifted (B : Matrix (Fin n) (Fin n) ℝ) (lam : ℝ) : Matrix (Fin n) (Fin n) ℝ := B + lam • (1 : Matrix (Fin n) (Fin n) ℝ)

/-- One pass of the inner loop, trust_region_test.cpp:141-158: the new `lambda`. -/
noncomputable def pass (c : Llt n) (B : Matrix (Fin n) (Fin n) ℝ) (g : Fin n → ℝ) (rad lam : ℝ) : Option ℝ :=
  if c.ok (shifted B lam) then
    let p := c.solve (shifted B lam) (-g)
    let q := c.lsolve (shifted B lam) p
    if q ⬝ᵥ q = 0 ∨ rad = 0 then none else some (lam + p ⬝ᵥ p / (q ⬝ᵥ q) * (norm p - rad) / rad)
  else some (lam * 2)

/-- `k` passes of the inner loop. -/
noncomputable def passes (c : Llt n) (B : Matrix (Fin n) (Fin n) ℝ) (g : Fin n → ℝ) (rad : ℝ) : ℕ → ℝ → Option ℝ
  | 0, lam => some lam
  | k + 1, lam => (pass c B g rad lam).bind (passes c B g rad k)

/-- The step, trust_region_test.cpp:140-162: three passes from `lambda = 0.1`, then one more solution. -/
noncomputable def trialStep (c : Llt n) (B : Matrix (Fin n) (Fin n) ℝ) (g : Fin n → ℝ) (rad : ℝ) : Option (Fin n → ℝ) :=
  (passes c B g rad 3 (1 / 10)).map fun lam => c.solve (shifted B lam) (-g)

/-- The new radius, trust_region_test.cpp:187-201; `trust_region_max_radius` is 1000 (128). -/
noncomputable def newRadius (rho : ℝ) (p : Fin n → ℝ) (rad : ℝ) : ℝ :=
  if rho < 1 / 10 then 1 / 2 * rad
  else if 3 / 4 < rho then (if norm p < 8 / 10 * rad then rad else min (2 * rad) 1000)
  else rad

/-- What the loop carries from one iteration to the next. -/
structure State (n : ℕ) where
  x : Fin n → ℝ
  rad : ℝ

/-- One iteration up to the test for the end, trust_region_test.cpp:137-201; `eta` is 0 (127). -/
noncomputable def iter (c : Llt n) (prob : Objective n) (s : State n) : Option (State n) :=
  (trialStep c (prob.hess s.x) (prob.grad s.x) s.rad).bind fun p =>
    let pred := -(prob.grad s.x ⬝ᵥ p + 1 / 2 * (p ⬝ᵥ prob.hess s.x *ᵥ p))
    let ared := prob.f s.x - prob.f (s.x + p)
    if pred = 0 then none else
    let rho := ared / pred
    some ⟨if 0 < rho then s.x + p else s.x, newRadius rho p s.rad⟩

/-- The test at the end of the body, trust_region_test.cpp:210-212, with `epsilon = 1e-4` (126): the gradient is that of the point before the step. -/
def done (prob : Objective n) (s : State n) : Prop := ∀ i, |prob.grad s.x i| < 1 / 10000

open Classical in
/-- The loop, trust_region_test.cpp:134-213, with `k` iterations left. -/
noncomputable def loop (c : Llt n) (prob : Objective n) : ℕ → State n → Option (State n)
  | 0, s => some s
  | k + 1, s => (iter c prob s).bind fun s' => if done prob s then some s' else loop c prob k s'

/-- The run: radius 0.1 at the start (129-130), at most 100 iterations. -/
noncomputable def run (c : Llt n) (prob : Objective n) (x0 : Fin n → ℝ) : Option (State n) := loop c prob 100 ⟨x0, 1 / 10⟩

end PolyMPC.TrustRegion
