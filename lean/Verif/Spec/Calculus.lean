import Mathlib.Analysis.Calculus.FDeriv.Symmetric
import Mathlib.Analysis.Calculus.FDeriv.Pi

/-!
# Calculus vocabulary for the automatic differentiation and transcription properties
-/

namespace PolyMPC.Spec

/-- The linear functional with coefficient vector `v`; `HasFDerivAt f (gradMap v) x` says that `v` is the gradient of `f` at `x`. -/
noncomputable def gradMap {n : ℕ} (v : Fin n → ℝ) : (Fin n → ℝ) →L[ℝ] ℝ :=
  ∑ j, v j • ContinuousLinearMap.proj (R := ℝ) (φ := fun _ : Fin n => ℝ) j

theorem gradMap_apply {n : ℕ} (v z : Fin n → ℝ) : gradMap v z = ∑ j, v j * z j := by
  simp [gradMap]

/-- `v` is the gradient of `f` at `x`. -/
def IsGradient {n : ℕ} (f : (Fin n → ℝ) → ℝ) (v x : Fin n → ℝ) : Prop := HasFDerivAt f (gradMap v) x

/-- `H` is the matrix of second derivatives of `f` at `x`: near `x` the function has a gradient `g`, and column `i` of `H` is the
gradient of the `i`-th component of `g` at `x`. -/
def IsHessian {n : ℕ} (f : (Fin n → ℝ) → ℝ) (H : Fin n → Fin n → ℝ) (x : Fin n → ℝ) : Prop :=
  ∃ g : (Fin n → ℝ) → Fin n → ℝ, (∀ᶠ z in nhds x, IsGradient f (g z) z) ∧
    ∀ i, IsGradient (fun z => g z i) (fun r => H r i) x

end PolyMPC.Spec
