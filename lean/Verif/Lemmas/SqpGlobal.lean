import Verif.Spec.Descent
import Mathlib.Analysis.Calculus.Deriv.MeanValue
import Mathlib.Analysis.Calculus.Deriv.Mul
import Mathlib.Analysis.Calculus.Deriv.Pow
import Mathlib.Analysis.Convex.Basic
import Mathlib.Algebra.Order.BigOperators.Ring.Finset
import Mathlib.Tactic.Linarith
import Mathlib.Tactic.Ring

/-!
# Estimates for the decrease of a smooth function along a step
-/

namespace PolyMPC.Spec
open Matrix Set

variable {n : ℕ}

theorem dot_self_nonneg {ι : Type*} [Fintype ι] (v : ι → ℝ) : 0 ≤ v ⬝ᵥ v := Finset.sum_nonneg fun i _ => mul_self_nonneg (v i)

theorem cauchy_schwarz (a b : Fin n → ℝ) : (a ⬝ᵥ b) ^ 2 ≤ (a ⬝ᵥ a) * (b ⬝ᵥ b) := by
  have := Finset.sum_mul_sq_le_sq_mul_sq Finset.univ a b
  simpa only [dotProduct, sq] using this

theorem EuclideanLipschitzOn.dot_le {g : (Fin n → ℝ) → Fin n → ℝ} {L : ℝ} {S : Set (Fin n → ℝ)} (hL : 0 ≤ L) (h : EuclideanLipschitzOn g L S) {x y : Fin n → ℝ} (hx : x ∈ S)
    (hy : y ∈ S) : (g y - g x) ⬝ᵥ (y - x) ≤ L * ((y - x) ⬝ᵥ (y - x)) := by
  have h1 := cauchy_schwarz (g y - g x) (y - x)
  have h2 := mul_le_mul_of_nonneg_right (h x hx y hy) (dot_self_nonneg (y - x))
  have h3 : ((g y - g x) ⬝ᵥ (y - x)) ^ 2 ≤ (L * ((y - x) ⬝ᵥ (y - x))) ^ 2 := by linarith
  exact (le_abs_self _).trans (abs_le_of_sq_le_sq h3 (mul_nonneg hL (dot_self_nonneg _)))

/-- The descent lemma. -/
theorem descent {f : (Fin n → ℝ) → ℝ} {g : (Fin n → ℝ) → Fin n → ℝ} {L : ℝ} {S : Set (Fin n → ℝ)} (hS : Convex ℝ S) (hL : 0 ≤ L) (hg : HasGradientOn f g S)
    (h : EuclideanLipschitzOn g L S) {x y : Fin n → ℝ} (hx : x ∈ S) (hy : y ∈ S) :
    f y ≤ f x + g x ⬝ᵥ (y - x) + L / 2 * ((y - x) ⬝ᵥ (y - x)) := by
  set d := y - x with hd
  set φ : ℝ → ℝ := fun t => f (x + t • d) - (t * (g x ⬝ᵥ d) + L / 2 * t ^ 2 * (d ⬝ᵥ d)) with hφ
  have hin : ∀ t ∈ Icc (0 : ℝ) 1, x + t • d ∈ S := fun t ht => hS.add_smul_sub_mem hx hy ht
  have hder : ∀ t ∈ Icc (0 : ℝ) 1, HasDerivWithinAt φ (g (x + t • d) ⬝ᵥ d - (1 * (g x ⬝ᵥ d) + L / 2 * (2 * t ^ (2 - 1) * 1) * (d ⬝ᵥ d))) (Icc 0 1) t := by
    intro t ht
    refine (hg x hx y hy t ht).sub (HasDerivWithinAt.add ?_ ?_)
    · exact (hasDerivWithinAt_id t _).mul_const _
    · have := (((hasDerivWithinAt_id t (Icc (0 : ℝ) 1)).pow 2).const_mul (L / 2)).mul_const (d ⬝ᵥ d)
      exact this
  have hanti : AntitoneOn φ (Icc 0 1) := by
    refine antitoneOn_of_deriv_nonpos (convex_Icc 0 1) (fun t ht => (hder t ht).continuousWithinAt) (fun t ht => ?_) fun t ht => ?_
    · rw [interior_Icc] at ht ⊢
      exact ((hder t (Ioo_subset_Icc_self ht)).mono Ioo_subset_Icc_self).differentiableWithinAt
    · rw [interior_Icc] at ht
      rw [((hder t (Ioo_subset_Icc_self ht)).hasDerivAt (Icc_mem_nhds ht.1 ht.2)).deriv]
      have h1 := h.dot_le hL hx (hin t (Ioo_subset_Icc_self ht))
      rw [add_sub_cancel_left, dotProduct_smul, smul_dotProduct, dotProduct_smul, sub_dotProduct, smul_eq_mul, smul_eq_mul, smul_eq_mul] at h1
      have h2 : t * (g (x + t • d) ⬝ᵥ d - g x ⬝ᵥ d) ≤ t * (L * t * (d ⬝ᵥ d)) := by linarith
      have h3 := le_of_mul_le_mul_left h2 ht.1
      simp only [Nat.add_one_sub_one, pow_one]
      linarith
  have h1 := hanti (left_mem_Icc.2 zero_le_one) (right_mem_Icc.2 zero_le_one) zero_le_one
  simp only [hφ, one_smul, zero_smul, add_zero, hd, add_sub_cancel] at h1
  simp only [hd]
  linarith

/-- The convexity of the square. -/
theorem dot_convex {ι : Type*} [Fintype ι] (a b : ι → ℝ) {t : ℝ} (h0 : 0 ≤ t) (h1 : t ≤ 1) :
    ((1 - t) • a + t • b) ⬝ᵥ ((1 - t) • a + t • b) ≤ (1 - t) * (a ⬝ᵥ a) + t * (b ⬝ᵥ b) := by
  have h := mul_nonneg (mul_nonneg h0 (sub_nonneg.2 h1)) (dot_self_nonneg (a - b))
  have h2 : (a - b) ⬝ᵥ (a - b) = a ⬝ᵥ a - 2 * (a ⬝ᵥ b) + b ⬝ᵥ b := by
    rw [sub_dotProduct, dotProduct_sub, dotProduct_sub, dotProduct_comm b a]; ring
  rw [h2] at h
  rw [add_dotProduct, dotProduct_add, dotProduct_add]
  simp only [smul_dotProduct, dotProduct_smul, smul_eq_mul]
  rw [dotProduct_comm b a]
  linarith

theorem dot_add_le {ι : Type*} [Fintype ι] (a b : ι → ℝ) : (a + b) ⬝ᵥ (a + b) ≤ 2 * (a ⬝ᵥ a) + 2 * (b ⬝ᵥ b) := by
  have h := dot_self_nonneg (a - b)
  rw [sub_dotProduct, dotProduct_sub, dotProduct_sub, dotProduct_comm b a] at h
  rw [add_dotProduct, dotProduct_add, dotProduct_add, dotProduct_comm b a]
  linarith

theorem sq_abs_le_dot {ι : Type*} [Fintype ι] (v : ι → ℝ) (i : ι) : v i ^ 2 ≤ v ⬝ᵥ v := by
  rw [sq]
  exact Finset.single_le_sum (f := fun i => v i * v i) (fun j _ => mul_self_nonneg (v j)) (Finset.mem_univ i)

/-- One step of the error of the multipliers: `e' = (1 - α) e + (g' - g) - α w`. -/
theorem multiplier_step {ι : Type*} [Fintype ι] {e e' dg w p : ι → ℝ} {a L M : ℝ} (h0 : 0 < a) (h1 : a ≤ 1) (he : e' = (1 - a) • e + dg - a • w)
    (hg : dg ⬝ᵥ dg ≤ L ^ 2 * ((a • p) ⬝ᵥ (a • p))) (hw : w ⬝ᵥ w ≤ M ^ 2 * (p ⬝ᵥ p)) :
    e' ⬝ᵥ e' ≤ (1 - a) * (e ⬝ᵥ e) + a * ((2 * L ^ 2 + 2 * M ^ 2) * (p ⬝ᵥ p)) := by
  have h2 : e' = (1 - a) • e + a • (a⁻¹ • dg + -w) := by
    rw [he, smul_add, smul_smul, mul_inv_cancel₀ h0.ne', one_smul, smul_neg]; abel
  have h3 := dot_convex e (a⁻¹ • dg + -w) h0.le h1
  have h4 := dot_add_le (a⁻¹ • dg) (-w)
  have h5 : (a⁻¹ • dg) ⬝ᵥ (a⁻¹ • dg) ≤ L ^ 2 * (p ⬝ᵥ p) := by
    rw [smul_dotProduct, dotProduct_smul, smul_eq_mul, smul_eq_mul] at hg ⊢
    have h6 : a⁻¹ * (a⁻¹ * (dg ⬝ᵥ dg)) ≤ a⁻¹ * (a⁻¹ * (L ^ 2 * (a * (a * (p ⬝ᵥ p))))) :=
      mul_le_mul_of_nonneg_left (mul_le_mul_of_nonneg_left hg (inv_nonneg.2 h0.le)) (inv_nonneg.2 h0.le)
    have h7 : a⁻¹ * (a⁻¹ * (L ^ 2 * (a * (a * (p ⬝ᵥ p))))) = L ^ 2 * (p ⬝ᵥ p) := by field_simp
    linarith
  rw [neg_dotProduct_neg] at h4
  rw [h2]
  refine h3.trans ?_
  have h6 := mul_le_mul_of_nonneg_left (h4.trans (show _ ≤ (2 * L ^ 2 + 2 * M ^ 2) * (p ⬝ᵥ p) by linarith)) h0.le
  linarith

end PolyMPC.Spec
