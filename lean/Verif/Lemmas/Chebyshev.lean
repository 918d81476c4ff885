import Verif.Model.Chebyshev
import Mathlib.Analysis.SpecialFunctions.Trigonometric.Chebyshev.Basic
import Mathlib.Analysis.SpecialFunctions.Integrals.Basic
import Mathlib.Analysis.Calculus.Deriv.Polynomial
import Mathlib.Topology.Algebra.Polynomial
import Mathlib.Algebra.Polynomial.Eval.SMul
import Mathlib.Tactic.LinearCombination
import Mathlib.Tactic.Linarith
import Mathlib.Tactic.Positivity
import Mathlib.Tactic.FieldSimp

/-! Helper lemmas for the Chebyshev scheme: trapezoidal sums of cosines, graded families, integrals of polynomials. -/

namespace PolyMPC.Cheb
open Real Polynomial

/-- A linear functional which vanishes on a family of polynomials of degrees `0..N` vanishes on all polynomials of degree
at most `N`. -/
theorem graded_ext {K : Type*} [Field K] {P : ℕ → K[X]} (hd : ∀ k, (P k).natDegree = k) (h0 : ∀ k, P k ≠ 0)
    (L : K[X] →ₗ[K] K) : ∀ N, (∀ k ≤ N, L (P k) = 0) → ∀ p : K[X], p.natDegree ≤ N → L p = 0 := by
  have hsmul : ∀ (c : K) (p : K[X]), L (C c * p) = c * L p := fun c p => by rw [← smul_eq_C_mul, L.map_smul, smul_eq_mul]
  have hlc : ∀ k, (P k).coeff k ≠ 0 := fun k => by
    have := leadingCoeff_ne_zero.mpr (h0 k)
    rwa [leadingCoeff, hd k] at this
  intro N
  induction N with
  | zero =>
    intro h p hp
    have e : p = C (p.coeff 0 / (P 0).coeff 0) * P 0 := by
      rw [eq_C_of_natDegree_le_zero hp, eq_C_of_natDegree_le_zero (hd 0).le, ← C_mul]
      simp only [coeff_C_zero]
      rw [div_mul_cancel₀ _ (hlc 0)]
    rw [e, hsmul, h 0 le_rfl, mul_zero]
  | succ N ih =>
    intro h p hp
    have hq := ih (fun k hk => h k (by omega)) (p - C (p.coeff (N + 1) / (P (N + 1)).coeff (N + 1)) * P (N + 1)) ?_
    · rw [map_sub, hsmul, h (N + 1) le_rfl, mul_zero, sub_zero] at hq
      exact hq
    · have hle : (p - C (p.coeff (N + 1) / (P (N + 1)).coeff (N + 1)) * P (N + 1)).natDegree ≤ N + 1 :=
        (natDegree_sub_le _ _).trans (max_le hp ((natDegree_C_mul_le _ _).trans (hd _).le))
      rw [natDegree_le_iff_coeff_eq_zero]
      intro m hm
      rcases (Nat.succ_le_of_lt hm).eq_or_lt with h1 | h1
      · rw [← h1, Nat.succ_eq_add_one, coeff_sub, coeff_C_mul, div_mul_cancel₀ _ (hlc _), sub_self]
      · exact coeff_eq_zero_of_natDegree_lt (lt_of_le_of_lt hle h1)

/-- The trapezoidal sum over `0..N`. -/
noncomputable def trap (N : ℕ) (f : ℕ → ℝ) : ℝ :=
  ∑ i : Fin (N + 1), (if i.val = 0 ∨ i.val = N then 1 / 2 else 1) * f i.val

theorem trap_eq {N : ℕ} (hN : 1 ≤ N) (f : ℕ → ℝ) : trap N f = ∑ j ∈ Finset.range N, (f j + f (j + 1)) / 2 := by
  obtain ⟨n, rfl⟩ : ∃ n, N = n + 1 := ⟨N - 1, by omega⟩
  unfold trap
  rw [Fin.sum_univ_eq_sum_range (fun i => (if i = 0 ∨ i = n + 1 then (1 : ℝ) / 2 else 1) * f i) (n + 1 + 1)]
  rw [Finset.sum_range_succ, Finset.sum_range_succ']
  have h1 : ∑ k ∈ Finset.range n, (if k + 1 = 0 ∨ k + 1 = n + 1 then (1 : ℝ) / 2 else 1) * f (k + 1) =
      ∑ k ∈ Finset.range n, f (k + 1) := Finset.sum_congr rfl fun k hk => by
    have := Finset.mem_range.mp hk
    rw [if_neg (by omega), one_mul]
  have h2 : ∑ j ∈ Finset.range (n + 1), (f j + f (j + 1)) / 2 =
      (∑ j ∈ Finset.range (n + 1), f j) / 2 + (∑ j ∈ Finset.range (n + 1), f (j + 1)) / 2 := by
    rw [← Finset.sum_div, Finset.sum_add_distrib, add_div]
  rw [h1, h2, Finset.sum_range_succ', Finset.sum_range_succ (fun j => f (j + 1))]
  simp only [if_true, true_or, or_true]
  ring

theorem trap_cos_eq_zero {N : ℕ} (hN : 1 ≤ N) {a : ℤ} (ha : ¬ (2 * (N : ℤ) ∣ a)) :
    trap N (fun j => cos (a * (j * (π / N)))) = 0 := by
  have hN0 : (N : ℝ) ≠ 0 := by exact_mod_cast (by omega : N ≠ 0)
  set φ : ℝ := a * (π / N) with hφ
  have hs : sin (φ / 2) ≠ 0 := by
    rw [Ne, sin_eq_zero_iff]
    rintro ⟨n, hn⟩
    apply ha
    refine ⟨n, ?_⟩
    have hpi := pi_ne_zero
    have : (a : ℝ) = 2 * N * n := by
      rw [hφ] at hn
      field_simp at hn
      linear_combination -hn
    exact_mod_cast this
  have key : 2 * sin (φ / 2) * trap N (fun j => cos (a * (j * (π / N)))) = 0 := by
    rw [trap_eq hN, Finset.mul_sum]
    have : ∀ j ∈ Finset.range N, 2 * sin (φ / 2) * ((cos (a * ((j : ℕ) * (π / N))) + cos (a * ((j + 1 : ℕ) * (π / N)))) / 2) =
        cos (φ / 2) * sin (((j + 1 : ℕ) : ℝ) * φ) - cos (φ / 2) * sin ((j : ℝ) * φ) := by
      intro j _
      have e1 : a * ((j : ℕ) * (π / N)) = (j : ℝ) * φ := by rw [hφ]; ring
      have e2 : a * (((j + 1 : ℕ) : ℝ) * (π / N)) = (j : ℝ) * φ + 2 * (φ / 2) := by rw [hφ]; push_cast; ring
      have e3 : ((j + 1 : ℕ) : ℝ) * φ = (j : ℝ) * φ + 2 * (φ / 2) := by push_cast; ring
      rw [e1, e2, e3, cos_add, sin_add, cos_two_mul, sin_two_mul]
      have := sin_sq_add_cos_sq (φ / 2)
      linear_combination -2 * cos (φ / 2) * sin (↑j * φ) * this
    rw [Finset.sum_congr rfl this, Finset.sum_range_sub (fun j : ℕ => cos (φ / 2) * sin ((j : ℝ) * φ))]
    have e : (N : ℝ) * φ = (a : ℝ) * π := by rw [hφ]; field_simp
    rw [e, sin_int_mul_pi]; simp
  rcases mul_eq_zero.mp key with h | h
  · exact absurd h (mul_ne_zero two_ne_zero hs)
  · exact h

theorem trap_cos_eq {N : ℕ} (hN : 1 ≤ N) {a : ℤ} (ha : 2 * (N : ℤ) ∣ a) :
    trap N (fun j => cos (a * (j * (π / N)))) = N := by
  have hN0 : (N : ℝ) ≠ 0 := by exact_mod_cast (by omega : N ≠ 0)
  obtain ⟨m, rfl⟩ := ha
  have : ∀ j : ℕ, cos (((2 * (N : ℤ) * m : ℤ) : ℝ) * (j * (π / N))) = 1 := by
    intro j
    have : ((2 * (N : ℤ) * m : ℤ) : ℝ) * (j * (π / N)) = ((m * j : ℤ) : ℝ) * (2 * π) := by
      push_cast; field_simp
    rw [this, cos_int_mul_two_pi]
  rw [trap_eq hN, Finset.sum_congr rfl (g := fun _ => (1 : ℝ)) fun j _ => by rw [this, this]; norm_num]
  simp

/-- Discrete orthogonality. -/
theorem trap_mul {N : ℕ} (a b : ℤ) :
    trap N (fun j => cos (a * (j * (π / N))) * cos (b * (j * (π / N)))) =
      (trap N (fun j => cos (((a + b : ℤ) : ℝ) * (j * (π / N)))) + trap N (fun j => cos (((a - b : ℤ) : ℝ) * (j * (π / N))))) / 2 := by
  unfold trap
  rw [← Finset.sum_add_distrib, Finset.sum_div]
  refine Finset.sum_congr rfl fun i _ => ?_
  push_cast
  rw [add_mul, sub_mul, cos_add, cos_sub]
  ring

theorem trap_add {N : ℕ} (f g : ℕ → ℝ) : trap N (fun j => f j + g j) = trap N f + trap N g := by
  unfold trap; rw [← Finset.sum_add_distrib]; exact Finset.sum_congr rfl fun i _ => by ring

theorem trap_smul {N : ℕ} (c : ℝ) (f : ℕ → ℝ) : trap N (fun j => c * f j) = c * trap N f := by
  unfold trap; rw [Finset.mul_sum]; exact Finset.sum_congr rfl fun i _ => by ring

theorem trap_sum {N : ℕ} {α : Type*} (s : Finset α) (f : α → ℕ → ℝ) :
    trap N (fun j => ∑ a ∈ s, f a j) = ∑ a ∈ s, trap N (f a) := by
  unfold trap
  rw [Finset.sum_comm]
  exact Finset.sum_congr rfl fun i _ => by rw [Finset.mul_sum]

/-- Integral of a polynomial as a linear functional. -/
noncomputable def integralL (a b : ℝ) : ℝ[X] →ₗ[ℝ] ℝ where
  toFun p := ∫ x in a..b, p.eval x
  map_add' p q := by
    simp only [eval_add]
    exact intervalIntegral.integral_add (p.continuous.intervalIntegrable _ _) (q.continuous.intervalIntegrable _ _)
  map_smul' c p := by
    simp only [eval_smul, RingHom.id_apply, smul_eq_mul]
    exact intervalIntegral.integral_const_mul _ _

/-- Evaluation as a linear functional. -/
noncomputable def evalL (x : ℝ) : ℝ[X] →ₗ[ℝ] ℝ where
  toFun p := p.eval x
  map_add' p q := eval_add
  map_smul' c p := by simp

theorem integral_derivative (p : ℝ[X]) (a b : ℝ) : ∫ x in a..b, (derivative p).eval x = p.eval b - p.eval a :=
  intervalIntegral.integral_eq_sub_of_hasDerivAt (fun x _ => p.hasDerivAt x)
    ((derivative p).continuous.intervalIntegrable _ _)

open Polynomial.Chebyshev hiding C C_mul in
/-- Integrals of the Chebyshev polynomials. -/
theorem integral_T (k : ℕ) :
    ∫ x in (-1 : ℝ)..1, (T ℝ k).eval x = if k % 2 = 0 then 2 / (1 - (k : ℝ) ^ 2) else 0 := by
  match k with
  | 0 => simp; norm_num
  | 1 => simp
  | k + 2 =>
    have h2 : (2 : ℝ[X]) * T ℝ ((k + 2 : ℕ) : ℤ) = U ℝ (k + 2) - U ℝ k := by
      have := two_mul_T_eq_U_sub_U ℝ (k : ℤ)
      push_cast
      exact this
    have d1 : derivative (T ℝ ((k : ℤ) + 3)) = C ((k : ℝ) + 3) * U ℝ ((k : ℤ) + 2) := by
      rw [T_derivative_eq_U]
      rw [show (k : ℤ) + 3 - 1 = k + 2 by ring]
      congr 1
      push_cast
      rw [C_add, C_eq_natCast]
      rfl
    have d2 : derivative (T ℝ ((k : ℤ) + 1)) = C ((k : ℝ) + 1) * U ℝ (k : ℤ) := by
      rw [T_derivative_eq_U]
      rw [show (k : ℤ) + 1 - 1 = k by ring]
      congr 1
      push_cast
      rw [C_add, C_eq_natCast]
      rfl
    have k1 : (k : ℝ) + 1 ≠ 0 := by positivity
    have k3 : (k : ℝ) + 3 ≠ 0 := by positivity
    have hT : T ℝ ((k + 2 : ℕ) : ℤ) = derivative (C (1 / (2 * ((k : ℝ) + 3))) * T ℝ ((k : ℤ) + 3) -
        C (1 / (2 * ((k : ℝ) + 1))) * T ℝ ((k : ℤ) + 1)) := by
      rw [derivative_sub, derivative_C_mul, derivative_C_mul, d1, d2, ← mul_assoc, ← mul_assoc, ← C_mul, ← C_mul]
      have e1 : 1 / (2 * ((k : ℝ) + 3)) * (k + 3) = 1 / 2 := by field_simp
      have e2 : 1 / (2 * ((k : ℝ) + 1)) * (k + 1) = 1 / 2 := by field_simp
      rw [e1, e2, ← mul_sub, ← h2, ← mul_assoc]
      have : (C (1 / 2) : ℝ[X]) * 2 = 1 := by
        rw [show (2 : ℝ[X]) = C 2 from rfl, ← C_mul]; norm_num
      rw [this, one_mul]
    rw [hT, integral_derivative]
    simp only [eval_sub, eval_mul, eval_C, T_eval_one, T_eval_neg_one, Int.cast_negOnePow]
    rcases Nat.even_or_odd k with he | ho
    · have ek : Even ((k : ℤ)) := by exact_mod_cast he
      have o1 : ((-1 : ℝ)) ^ ((k : ℤ) + 3) = -1 := (ek.add_odd (by decide)).neg_one_zpow
      have o2 : ((-1 : ℝ)) ^ ((k : ℤ) + 1) = -1 := (ek.add_odd (by decide)).neg_one_zpow
      rw [o1, o2, if_pos (by rw [Nat.add_mod_right]; exact Nat.even_iff.mp he)]
      push_cast
      have : (1 : ℝ) - ((k : ℝ) + 2) ^ 2 ≠ 0 := by
        have : (0 : ℝ) ≤ k := Nat.cast_nonneg k
        nlinarith
      field_simp
      ring
    · have ek : Odd ((k : ℤ)) := by exact_mod_cast ho
      have o1 : ((-1 : ℝ)) ^ ((k : ℤ) + 3) = 1 := (ek.add_odd (by decide)).neg_one_zpow
      have o2 : ((-1 : ℝ)) ^ ((k : ℤ) + 1) = 1 := (ek.add_odd (by decide)).neg_one_zpow
      rw [o1, o2, if_neg (by rw [Nat.add_mod_right]; have := Nat.odd_iff.mp ho; omega)]
      ring

end PolyMPC.Cheb
