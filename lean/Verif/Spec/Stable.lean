import Mathlib.Data.Complex.Basic
import Mathlib.Data.Matrix.Mul
import Mathlib.Algebra.Algebra.Basic
import Mathlib.LinearAlgebra.Matrix.Defs

/-!
# Stability of a closed loop
-/

namespace PolyMPC.Spec
open Matrix

/-- All complex eigenvalues of `L` have negative real part: every solution of `x' = L x` tends to zero. -/
def Hurwitz {n : ℕ} (L : Matrix (Fin n) (Fin n) ℝ) : Prop :=
  ∀ (z : ℂ) (v : Fin n → ℂ), v ≠ 0 → L.map (fun r => (r : ℂ)) *ᵥ v = z • v → z.re < 0

/-- Every eigenvector of `A` whose eigenvalue has nonnegative real part is seen by the weight `C`. -/
def Detectable {n : ℕ} (A C : Matrix (Fin n) (Fin n) ℝ) : Prop :=
  ∀ (z : ℂ) (v : Fin n → ℂ), v ≠ 0 → A.map (fun r => (r : ℂ)) *ᵥ v = z • v → 0 ≤ z.re → C.map (fun r => (r : ℂ)) *ᵥ v ≠ 0

end PolyMPC.Spec
