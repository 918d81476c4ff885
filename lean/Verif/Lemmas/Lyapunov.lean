import Verif.Spec.Stable

import Mathlib.LinearAlgebra.Matrix.PosDef
import Mathlib.Data.Complex.BigOperators
import Mathlib.Analysis.Matrix.Order
import Mathlib.Algebra.BigOperators.Field
import Mathlib.Analysis.Normed.Module.FiniteDimension
import Mathlib.LinearAlgebra.Matrix.DotProduct
import Mathlib.Tactic.Linarith
import Mathlib.Tactic.Ring
import Mathlib.Tactic.Positivity

/-!
# Lyapunov functions of stable matrices
-/

set_option linter.style.longLine false

namespace PolyMPC.Lqr
open Matrix Spec

variable {n : ℕ}

theorem exists_neg_margin (f : Fin n → ℝ) (h : ∀ i, f i < 0) : ∃ m > 0, ∀ i, f i ≤ -m := by
  rcases isEmpty_or_nonempty (Fin n) with he | he
  · exact ⟨1, one_pos, fun i => he.elim i⟩
  · obtain ⟨i, hi⟩ := Finite.exists_max f
    exact ⟨-f i, neg_pos.2 (h i), fun j => by rw [neg_neg]; exact hi j⟩

theorem exists_bound (S : Matrix (Fin n) (Fin n) ℝ) : ∃ τ > 0, ∀ i j, |S i j| ≤ τ := by
  refine ⟨1 + ∑ i, ∑ j, |S i j|, by positivity, fun i j => ?_⟩
  have h1 : |S i j| ≤ ∑ j, |S i j| := Finset.single_le_sum (f := fun j => |S i j|) (fun _ _ => abs_nonneg _) (Finset.mem_univ j)
  have h2 : ∑ j, |S i j| ≤ ∑ i, ∑ j, |S i j| := Finset.single_le_sum (f := fun i => ∑ j, |S i j|) (fun _ _ => Finset.sum_nonneg fun _ _ => abs_nonneg _) (Finset.mem_univ i)
  linarith

/-- A lower triangular matrix with negative diagonal has a diagonal Lyapunov function. -/
theorem triangular_certificate (S : Matrix (Fin n) (Fin n) ℝ) (hS : ∀ i j, i < j → S i j = 0) (hd : ∀ i, S i i < 0) :
    ∃ d : Fin n → ℝ, (∀ i, 0 < d i) ∧ ∀ x : Fin n → ℝ, x ≠ 0 → ∑ i, ∑ j, d i * S i j * (x i * x j) < 0 := by
  obtain ⟨m, hm, hdm⟩ := exists_neg_margin _ hd
  obtain ⟨τ, hτ, hb⟩ := exists_bound S
  have hN : (0 : ℝ) < n + 1 := by positivity
  set ε := min 1 (m / (2 * τ * (n + 1))) with hε
  have ε0 : 0 < ε := by positivity
  have ε1 : ε ≤ 1 := min_le_left _ _
  have ε2 : ε * τ * (n + 1) ≤ m / 2 := by
    have := min_le_right 1 (m / (2 * τ * (n + 1)))
    rw [le_div_iff₀ (by positivity), ← hε] at this
    linarith
  refine ⟨fun i => ε ^ (2 * i.val), fun i => by positivity, fun x hx => ?_⟩
  set z : Fin n → ℝ := fun i => ε ^ i.val * x i with hz
  have hterm : ∀ i j, ε ^ (2 * i.val) * S i j * (x i * x j) ≤ (if i = j then -m * z i ^ 2 else 0) + τ * ε * (z i ^ 2 / 2 + z j ^ 2 / 2) := by
    intro i j
    have hnn : 0 ≤ τ * ε * (z i ^ 2 / 2 + z j ^ 2 / 2) := by positivity
    rcases lt_trichotomy i j with hij | rfl | hij
    · rw [hS i j hij, mul_zero, zero_mul, if_neg hij.ne, zero_add]
      exact hnn
    · rw [if_pos rfl]
      have : ε ^ (2 * i.val) * S i i * (x i * x i) = S i i * z i ^ 2 := by
        show _ = S i i * (ε ^ i.val * x i) ^ 2
        rw [mul_pow, ← pow_mul, mul_comm i.val 2]; ring
      rw [this]
      have := mul_le_mul_of_nonneg_right (hdm i) (sq_nonneg (z i))
      linarith
    · rw [if_neg hij.ne', zero_add]
      have hk : (i.val - j.val) + j.val = i.val := Nat.sub_add_cancel (le_of_lt hij)
      have : ε ^ (2 * i.val) * S i j * (x i * x j) = S i j * ε ^ (i.val - j.val) * (z i * z j) := by
        show _ = S i j * ε ^ (i.val - j.val) * (ε ^ i.val * x i * (ε ^ j.val * x j))
        have h1 : ε ^ (2 * i.val) = ε ^ i.val * (ε ^ (i.val - j.val) * ε ^ j.val) := by rw [← pow_add, hk, two_mul, pow_add]
        rw [h1]; ring
      rw [this]
      have hpow : ε ^ (i.val - j.val) ≤ ε := by
        have : 1 ≤ i.val - j.val := by have : j.val < i.val := hij; omega
        calc ε ^ (i.val - j.val) ≤ ε ^ 1 := pow_le_pow_of_le_one ε0.le ε1 this
          _ = ε := pow_one _
      calc S i j * ε ^ (i.val - j.val) * (z i * z j) ≤ |S i j * ε ^ (i.val - j.val) * (z i * z j)| := le_abs_self _
        _ = |S i j| * ε ^ (i.val - j.val) * |z i * z j| := by rw [abs_mul, abs_mul, abs_of_nonneg (pow_nonneg ε0.le _)]
        _ ≤ τ * ε * (z i ^ 2 / 2 + z j ^ 2 / 2) := by
          refine mul_le_mul (mul_le_mul (hb i j) hpow (by positivity) hτ.le) ?_ (abs_nonneg _) (by positivity)
          rw [abs_le]
          constructor <;> nlinarith [sq_nonneg (z i + z j), sq_nonneg (z i - z j)]
  have hsum : ∑ i, ∑ j, ε ^ (2 * i.val) * S i j * (x i * x j) ≤ -m * (∑ i, z i ^ 2) + τ * ε * n * ∑ i, z i ^ 2 := by
    refine (Finset.sum_le_sum fun i _ => Finset.sum_le_sum fun j _ => hterm i j).trans (le_of_eq ?_)
    simp only [Finset.sum_add_distrib, Finset.sum_ite_eq, Finset.mem_univ, if_true, ← Finset.mul_sum, Finset.sum_const, Finset.card_univ, Fintype.card_fin, nsmul_eq_mul, ← Finset.sum_div]
    ring
  have hpos : 0 < ∑ i, z i ^ 2 := by
    obtain ⟨i, hi⟩ := Function.ne_iff.1 hx
    refine Finset.sum_pos' (fun i _ => sq_nonneg _) ⟨i, Finset.mem_univ i, ?_⟩
    have : z i ≠ 0 := mul_ne_zero (pow_pos ε0 _).ne' hi
    positivity
  have h3 : τ * ε * n ≤ m / 2 := by
    have : τ * ε * n ≤ ε * τ * (n + 1) := by nlinarith [mul_pos ε0 hτ]
    linarith
  have := mul_le_mul_of_nonneg_right h3 hpos.le
  nlinarith

/-- With a Lyapunov function `P` of `L`, every symmetric matrix that decreases along `L` is positive semidefinite. -/
theorem nonneg_of_decrease {L P N : Matrix (Fin n) (Fin n) ℝ} (hPs : Pᵀ = P) (hP : ∀ x : Fin n → ℝ, x ≠ 0 → 0 < x ⬝ᵥ P *ᵥ x) (hL : ∀ x : Fin n → ℝ, x ≠ 0 → x ⬝ᵥ P *ᵥ (L *ᵥ x) < 0)
    (hNs : Nᵀ = N) (hN : ∀ x : Fin n → ℝ, x ⬝ᵥ N *ᵥ (L *ᵥ x) ≤ 0) (x : Fin n → ℝ) : 0 ≤ x ⬝ᵥ N *ᵥ x := by
  by_contra hneg
  rw [not_le] at hneg
  have hx0 : x ≠ 0 := by rintro rfl; simp at hneg
  have hquad : ∀ (M : Matrix (Fin n) (Fin n) ℝ) (c : ℝ) (v : Fin n → ℝ), (c • v) ⬝ᵥ M *ᵥ (c • v) = c ^ 2 * (v ⬝ᵥ M *ᵥ v) := fun M c v => by
    rw [mulVec_smul, dotProduct_smul, smul_dotProduct, smul_eq_mul, smul_eq_mul]; ring
  have hcont : ∀ M : Matrix (Fin n) (Fin n) ℝ, Continuous fun v : Fin n → ℝ => v ⬝ᵥ M *ᵥ v := fun M => by
    simp only [dotProduct, mulVec]
    fun_prop
  have hu : ∀ v : Fin n → ℝ, v ≠ 0 → (‖v‖⁻¹ • v) ∈ Metric.sphere (0 : Fin n → ℝ) 1 := fun v hv => by
    rw [mem_sphere_zero_iff_norm, norm_smul, norm_inv, norm_norm, inv_mul_cancel₀ (norm_ne_zero_iff.2 hv)]
  have hne : ∀ v ∈ Metric.sphere (0 : Fin n → ℝ) 1, v ≠ 0 := fun v hv h => by
    rw [h, mem_sphere_zero_iff_norm, norm_zero] at hv; exact zero_ne_one hv
  obtain ⟨v, hv, hmin⟩ := (isCompact_sphere (0 : Fin n → ℝ) 1).exists_isMinOn ⟨_, hu x hx0⟩
    (f := fun v => (v ⬝ᵥ N *ᵥ v) / (v ⬝ᵥ P *ᵥ v)) ((hcont N).continuousOn.div (hcont P).continuousOn fun v hv => (hP v (hne v hv)).ne')
  have hv0 := hne v hv
  have hPv := hP v hv0
  set μ := (v ⬝ᵥ N *ᵥ v) / (v ⬝ᵥ P *ᵥ v) with hμ
  have hall : ∀ y : Fin n → ℝ, 0 ≤ y ⬝ᵥ (N - μ • P) *ᵥ y := by
    intro y
    rw [sub_mulVec, smul_mulVec, dotProduct_sub, dotProduct_smul, smul_eq_mul]
    rcases eq_or_ne y 0 with rfl | hy
    · simp
    · have h1 := hmin (hu y hy)
      have hc : 0 < ‖y‖⁻¹ ^ 2 := by have := norm_pos_iff.2 hy; positivity
      simp only [Set.mem_ofPred_eq, hquad] at h1
      rw [mul_div_mul_left _ _ hc.ne', ← hμ, le_div_iff₀ (hP y hy)] at h1
      linarith
  have hμ0 : μ < 0 := by
    have h1 := hall x
    rw [sub_mulVec, smul_mulVec, dotProduct_sub, dotProduct_smul, smul_eq_mul] at h1
    have h2 := hP x hx0
    by_contra h
    have := mul_nonneg (not_lt.1 h) h2.le
    linarith
  have hzero : v ⬝ᵥ (N - μ • P) *ᵥ v = 0 := by
    rw [sub_mulVec, smul_mulVec, dotProduct_sub, dotProduct_smul, smul_eq_mul, hμ, div_mul_cancel₀ _ hPv.ne', sub_self]
  have hMs : (N - μ • P)ᵀ = N - μ • P := by rw [transpose_sub, transpose_smul, hNs, hPs]
  have hpsd : (N - μ • P).PosSemidef := PosSemidef.of_dotProduct_mulVec_nonneg (by rw [IsHermitian, conjTranspose_eq_transpose_of_trivial, hMs]) fun y => by rw [star_trivial]; exact hall y
  have hker : (N - μ • P) *ᵥ v = 0 := by
    refine (hpsd.dotProduct_mulVec_zero_iff v).1 ?_
    rw [star_trivial]; exact hzero
  have h1 : v ⬝ᵥ (N - μ • P) *ᵥ (L *ᵥ v) = 0 := by
    rw [dotProduct_mulVec, ← hMs, vecMul_transpose, hker, zero_dotProduct]
  rw [sub_mulVec, smul_mulVec, dotProduct_sub, dotProduct_smul, smul_eq_mul] at h1
  have h2 := hL v hv0
  have h3 := hN v
  nlinarith

/-! ### Complex eigenvectors as pairs of real vectors -/

theorem map_split (L : Matrix (Fin n) (Fin n) ℝ) (v : Fin n → ℂ) (i : Fin n) :
    ((L.map (fun r => (r : ℂ)) *ᵥ v) i).re = (L *ᵥ fun j => (v j).re) i ∧ ((L.map (fun r => (r : ℂ)) *ᵥ v) i).im = (L *ᵥ fun j => (v j).im) i := by
  simp only [mulVec, dotProduct, Matrix.map_apply, Complex.re_sum, Complex.im_sum, Complex.mul_re, Complex.mul_im, Complex.ofReal_re, Complex.ofReal_im,
    zero_mul, sub_zero, add_zero, and_self]

theorem map_eq_iff (L : Matrix (Fin n) (Fin n) ℝ) (z : ℂ) (v : Fin n → ℂ) :
    L.map (fun r => (r : ℂ)) *ᵥ v = z • v ↔ (L *ᵥ (fun j => (v j).re) = z.re • (fun j => (v j).re) - z.im • (fun j => (v j).im)) ∧
      (L *ᵥ (fun j => (v j).im) = z.im • (fun j => (v j).re) + z.re • (fun j => (v j).im)) := by
  constructor
  · intro h
    constructor <;> funext i
    · rw [← (map_split L v i).1, h]; simp [Complex.mul_re]
    · rw [← (map_split L v i).2, h]; simp [Complex.mul_im]; ring
  · rintro ⟨h1, h2⟩
    funext i
    apply Complex.ext
    · rw [(map_split L v i).1, h1]; simp [Complex.mul_re]
    · rw [(map_split L v i).2, h2]; simp [Complex.mul_im]; ring

theorem complex_ne (x y : Fin n → ℝ) (h : x ≠ 0 ∨ y ≠ 0) : (fun i => (⟨x i, y i⟩ : ℂ)) ≠ 0 := by
  intro h0
  have := fun i => congrFun h0 i
  simp only [Pi.zero_apply, Complex.ext_iff, Complex.zero_re, Complex.zero_im] at this
  rcases h with h | h
  · exact h (funext fun i => (this i).1)
  · exact h (funext fun i => (this i).2)

theorem complex_parts (v : Fin n → ℂ) (h : v ≠ 0) : (fun i => (v i).re) ≠ 0 ∨ (fun i => (v i).im) ≠ 0 := by
  by_contra hc
  push Not at hc
  exact h (funext fun i => Complex.ext (congrFun hc.1 i) (congrFun hc.2 i))

/-- Stability in real terms -/
theorem hurwitz_iff (L : Matrix (Fin n) (Fin n) ℝ) : Hurwitz L ↔ ∀ (a b : ℝ) (x y : Fin n → ℝ), (x ≠ 0 ∨ y ≠ 0) → L *ᵥ x = a • x - b • y →
    L *ᵥ y = b • x + a • y → a < 0 := by
  constructor
  · intro h a b x y hxy hx hy
    exact h ⟨a, b⟩ _ (complex_ne x y hxy) ((map_eq_iff L ⟨a, b⟩ _).2 ⟨hx, hy⟩)
  · intro h z v hv hz
    obtain ⟨h1, h2⟩ := (map_eq_iff L z v).1 hz
    exact h z.re z.im _ _ (complex_parts v hv) h1 h2

theorem Detectable.real {A C : Matrix (Fin n) (Fin n) ℝ} (h : Detectable A C) {a b : ℝ} {x y : Fin n → ℝ} (hxy : x ≠ 0 ∨ y ≠ 0)
    (hx : A *ᵥ x = a • x - b • y) (hy : A *ᵥ y = b • x + a • y) (ha : 0 ≤ a) : ¬ (C *ᵥ x = 0 ∧ C *ᵥ y = 0) := by
  rintro ⟨c1, c2⟩
  refine h ⟨a, b⟩ _ (complex_ne x y hxy) ((map_eq_iff A ⟨a, b⟩ _).2 ⟨hx, hy⟩) ha ?_
  funext i
  apply Complex.ext
  · rw [(map_split C _ i).1]; exact congrFun c1 i
  · rw [(map_split C _ i).2]; exact congrFun c2 i

end PolyMPC.Lqr
