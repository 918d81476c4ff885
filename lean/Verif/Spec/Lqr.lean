import Mathlib.Data.Matrix.Mul
import Mathlib.Data.Matrix.Basic
import Mathlib.Data.Real.Basic

/-!
# What a Lyapunov, a Riccati and an LQR solution is
-/

namespace PolyMPC.Spec
open Matrix

/-- `P` is the Moore-Penrose inverse of `A`. -/
def MoorePenrose {r c : ℕ} (A : Matrix (Fin r) (Fin c) ℝ) (P : Matrix (Fin c) (Fin r) ℝ) : Prop :=
  A * P * A = A ∧ P * A * P = P ∧ (A * P)ᵀ = A * P ∧ (P * A)ᵀ = P * A

/-- `A X + X A' = Q` -/
def SolvesLyapunov {n : ℕ} (A Q X : Matrix (Fin n) (Fin n) ℝ) : Prop := A * X + X * Aᵀ = Q

/-- `A' X + X A - X B X + C = 0` -/
def SolvesCare {n : ℕ} (A B C X : Matrix (Fin n) (Fin n) ℝ) : Prop := Aᵀ * X + X * A - X * B * X + C = 0

/-- Squared Frobenius norm -/
def sqNorm {n : ℕ} (X : Matrix (Fin n) (Fin n) ℝ) : ℝ := ∑ i, ∑ j, X i j ^ 2

/-- Completion of the square for the running cost `x'Qx + κ x'Mu + u'Ru` along `x' = Fx + Gu`: running cost plus the derivative of `x'Sx` is the
square of `u + Kx` in the weight `R`. With `R` positive this is what makes `u = -Kx` optimal with value `x'Sx`. -/
def CompletesSquare {n m : ℕ} (κ : ℝ) (F : Matrix (Fin n) (Fin n) ℝ) (G : Matrix (Fin n) (Fin m) ℝ) (Q : Matrix (Fin n) (Fin n) ℝ)
    (R : Matrix (Fin m) (Fin m) ℝ) (M : Matrix (Fin n) (Fin m) ℝ) (S : Matrix (Fin n) (Fin n) ℝ) (K : Matrix (Fin m) (Fin n) ℝ) : Prop :=
  ∀ (x : Fin n → ℝ) (u : Fin m → ℝ),
    x ⬝ᵥ Q *ᵥ x + κ * (x ⬝ᵥ M *ᵥ u) + u ⬝ᵥ R *ᵥ u + ((F *ᵥ x + G *ᵥ u) ⬝ᵥ S *ᵥ x + x ⬝ᵥ S *ᵥ (F *ᵥ x + G *ᵥ u))
      = (u + K *ᵥ x) ⬝ᵥ R *ᵥ (u + K *ᵥ x)

end PolyMPC.Spec
