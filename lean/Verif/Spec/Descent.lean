import Mathlib.Data.Matrix.Mul
import Mathlib.Analysis.Calculus.Deriv.Basic

/-!
# Smooth functions on a set and bounded quadratic models

Vocabulary only; no solver is mentioned.
-/

namespace PolyMPC.Spec
open Matrix Set

variable {n : ℕ}

/-- On every segment within `S`, `g` gives the slope of `f`; nothing is said about `f` outside `S`. -/
def HasGradientOn (f : (Fin n → ℝ) → ℝ) (g : (Fin n → ℝ) → Fin n → ℝ) (S : Set (Fin n → ℝ)) : Prop :=
  ∀ x ∈ S, ∀ y ∈ S, ∀ t ∈ Icc (0 : ℝ) 1,
    HasDerivWithinAt (fun s : ℝ => f (x + s • (y - x))) (g (x + t • (y - x)) ⬝ᵥ (y - x)) (Icc 0 1) t

/-- `g` is Lipschitz on `S` with constant `L` in the Euclidean norm. -/
def EuclideanLipschitzOn (g : (Fin n → ℝ) → Fin n → ℝ) (L : ℝ) (S : Set (Fin n → ℝ)) : Prop :=
  ∀ x ∈ S, ∀ y ∈ S, (g y - g x) ⬝ᵥ (g y - g x) ≤ L ^ 2 * ((y - x) ⬝ᵥ (y - x))

/-- `H` is symmetric with curvature at least `m`, and it stretches no vector by more than `M` (Euclidean norm). -/
def CurvatureBetween (m M : ℝ) (H : Matrix (Fin n) (Fin n) ℝ) : Prop :=
  Hᵀ = H ∧ (∀ v, m * (v ⬝ᵥ v) ≤ v ⬝ᵥ H *ᵥ v) ∧ ∀ v, (H *ᵥ v) ⬝ᵥ (H *ᵥ v) ≤ M ^ 2 * (v ⬝ᵥ v)

end PolyMPC.Spec
