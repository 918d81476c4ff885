import Verif.Spec.Polynomial
import Mathlib.Algebra.CharZero.Defs
import Mathlib.Algebra.Polynomial.Monic
import Mathlib.Algebra.Order.Field.Basic
import Mathlib.Tactic.Linarith
import Mathlib.Tactic.Positivity
import Mathlib.Tactic.Ring
import Mathlib.Tactic.FieldSimp
import Mathlib.Tactic.LinearCombination
import Mathlib.Tactic.NormNum

/-! Algebraic facts about the Legendre polynomials defined by Rodrigues' formula. -/

set_option linter.unusedSectionVars false

namespace PolyMPC.Spec
open Polynomial

variable {K : Type*} [Field K] [CharZero K]

local notation "P" => legendre K

theorem legendre_zero : P 0 = 1 := by simp [legendre]

/-- The normalisation factor of Rodrigues' formula. -/
noncomputable def rod (K : Type*) [Field K] (n : ℕ) : K := (2 ^ n * (n.factorial : K))⁻¹

theorem rod_succ (n : ℕ) : rod K (n + 1) * (2 * (n + 1 : K)) = rod K n := by
  unfold rod
  have h1 : ((n.factorial : ℕ) : K) ≠ 0 := Nat.cast_ne_zero.mpr (Nat.factorial_ne_zero n)
  have h2 : (n + 1 : K) ≠ 0 := by exact_mod_cast Nat.succ_ne_zero n
  rw [Nat.factorial_succ]; push_cast
  field_simp
  ring

theorem legendre_eq (n : ℕ) : P n = C (rod K n) * derivative^[n] ((X ^ 2 - 1) ^ n) := rfl

theorem der_u (n : ℕ) : derivative ((X ^ 2 - 1 : K[X]) ^ (n + 1)) = C (2 * (n + 1 : K)) * (X * (X ^ 2 - 1) ^ n) := by
  rw [derivative_pow_succ]
  simp only [derivative_sub, derivative_X_pow, derivative_one, sub_zero, C_mul, C_add, C_1]
  simp
  ring

theorem iter_X_mul (n : ℕ) (f : K[X]) :
    derivative^[n + 1] (X * f) = X * derivative^[n + 1] f + C (n + 1 : K) * derivative^[n] f := by
  induction n with
  | zero => simp; ring
  | succ n ih =>
    rw [Function.iterate_succ_apply', ih, derivative_add, derivative_mul, derivative_X, derivative_C_mul,
      ← Function.iterate_succ_apply' derivative, ← Function.iterate_succ_apply' derivative]
    push_cast
    simp only [C_add, C_1]
    ring

/-- The auxiliary polynomial `dⁿ⁻¹/dxⁿ⁻¹ (x²-1)ⁿ / (2ⁿ n!)`, an antiderivative of `P n`. -/
noncomputable def aux (K : Type*) [Field K] (n : ℕ) : K[X] := C (rod K (n + 1)) * derivative^[n] ((X ^ 2 - 1) ^ (n + 1))

theorem derivative_aux (n : ℕ) : derivative (aux K n) = P (n + 1) := by
  rw [aux, derivative_C_mul, ← Function.iterate_succ_apply' derivative, legendre_eq]

/-- First relation: `P (n+2) = X P (n+1) + (n+1) S` with `S` the antiderivative of `P (n+1)`. -/
theorem rel1 (n : ℕ) : P (n + 2) = X * P (n + 1) + C (n + 1 : K) * aux K n := by
  rw [legendre_eq, legendre_eq, aux, Function.iterate_succ_apply, der_u, iterate_derivative_C_mul, iter_X_mul]
  have h := rod_succ (K := K) (n + 1)
  push_cast at h
  rw [← h]
  push_cast
  simp only [C_mul]
  ring

/-- Second relation: `P (n+2) = (2n+3) S + P n` with `S` the antiderivative of `P (n+1)`. -/
theorem rel2 (n : ℕ) : P (n + 2) = C (2 * (n + 1) + 1 : K) * aux K n + P n := by
  have e : derivative (derivative ((X ^ 2 - 1 : K[X]) ^ (n + 2))) =
      C (2 * (n + 2 : K)) * (C (2 * (n + 1) + 1 : K) * (X ^ 2 - 1) ^ (n + 1) + C (2 * (n + 1 : K)) * (X ^ 2 - 1) ^ n) := by
    rw [der_u, derivative_C_mul, derivative_mul, derivative_X, der_u]
    push_cast
    have : (C 2 : K[X]) = 1 + 1 := by rw [show (2 : K) = 1 + 1 by norm_num, C_add, C_1]
    simp only [C_mul, C_add, C_1, this]
    ring
  rw [legendre_eq, legendre_eq, aux, Function.iterate_succ_apply, Function.iterate_succ_apply, e, iterate_derivative_C_mul,
    iterate_map_add, iterate_derivative_C_mul, iterate_derivative_C_mul]
  have h := rod_succ (K := K) (n + 1)
  have h' := rod_succ (K := K) n
  push_cast at h
  rw [← h', ← h]
  have : (C 2 : K[X]) = 1 + 1 := by rw [show (2 : K) = 1 + 1 by norm_num, C_add, C_1]
  simp only [C_mul, C_add, C_1, this]
  generalize (derivative^[n] : K[X] → K[X]) ((X ^ 2 - 1) ^ n) = d0
  generalize (derivative^[n] : K[X] → K[X]) ((X ^ 2 - 1) ^ (n + 1)) = d1
  ring

theorem legendre_one : P 1 = X := by
  rw [legendre_eq, Function.iterate_one, pow_one]
  simp only [derivative_sub, derivative_X_pow, derivative_one, sub_zero, rod]
  simp only [Nat.cast_ofNat, C_ofNat, Nat.factorial, pow_one, Nat.cast_one, mul_one]
  rw [← mul_assoc, show (2 : K[X]) = C 2 from rfl, ← C_mul, inv_mul_cancel₀ (by exact_mod_cast (two_ne_zero : (2 : ℕ) ≠ 0))]
  simp

/-- Bonnet's recurrence. -/
theorem bonnet (n : ℕ) : C (n + 2 : K) * P (n + 2) = C (2 * (n + 1) + 1 : K) * (X * P (n + 1)) - C (n + 1 : K) * P n := by
  have h1 := rel1 (K := K) n
  have h2 := rel2 (K := K) n
  have e : (C (n + 2 : K) : K[X]) = C (2 * (n + 1) + 1 : K) - C (n + 1 : K) := by
    rw [← C_sub]; congr 1; ring
  rw [e]
  linear_combination (C (2 * (n + 1) + 1 : K)) * h1 - (C (n + 1 : K)) * h2

theorem der_rel1 (n : ℕ) : derivative (P (n + 1)) = X * derivative (P n) + C (n + 1 : K) * P n := by
  cases n with
  | zero => simp [legendre_zero, legendre_one]
  | succ n =>
    rw [rel1, derivative_add, derivative_mul, derivative_X, derivative_C_mul, derivative_aux]
    push_cast
    simp only [C_add, C_1]
    ring

theorem der_rel2 (n : ℕ) : derivative (P (n + 2)) = C (2 * (n + 1) + 1 : K) * P (n + 1) + derivative (P n) := by
  rw [rel2, derivative_add, derivative_C_mul, derivative_aux]

/-- `(1 - x²) P'_{n+1} = (n+1) (P_n - x P_{n+1})`. -/
theorem one_sub_sq_mul_der (n : ℕ) :
    (1 - X ^ 2) * derivative (P (n + 1)) = C (n + 1 : K) * (P n - X * P (n + 1)) := by
  have h1 := der_rel1 (K := K) n
  have h2 := der_rel1 (K := K) (n + 1)
  have h3 := der_rel2 (K := K) n
  push_cast at h2
  simp only [C_add, C_1, C_mul] at h1 h2 h3 ⊢
  have h4 : derivative (P n) = X * derivative (P (n + 1)) - (C (n : K) + 1) * P (n + 1) := by
    have : (C 2 : K[X]) = 1 + 1 := by rw [show (2 : K) = 1 + 1 by norm_num, C_add, C_1]
    rw [this] at h3
    linear_combination h2 - h3
  linear_combination h1 + X * h4

/-- Legendre's differential equation. -/
theorem legendre_ode (n : ℕ) : derivative ((1 - X ^ 2) * derivative (P n)) = - (C (n * (n + 1) : K) * P n) := by
  cases n with
  | zero => simp [legendre_zero]
  | succ n =>
    rw [one_sub_sq_mul_der, derivative_C_mul, derivative_sub, derivative_mul, derivative_X]
    have h2 := der_rel1 (K := K) (n + 1)
    have h3 := der_rel2 (K := K) n
    push_cast at h2 ⊢
    simp only [C_add, C_1, C_mul] at h2 h3 ⊢
    have : (C 2 : K[X]) = 1 + 1 := by rw [show (2 : K) = 1 + 1 by norm_num, C_add, C_1]
    rw [this] at h3
    linear_combination (C (n : K) + 1) * (h2 - h3)

theorem legendre_eval_one (n : ℕ) : (P n).eval 1 = 1 := by
  induction n using Nat.strongRecOn with
  | ind n ih =>
    match n with
    | 0 => simp [legendre_zero]
    | 1 => simp [legendre_one]
    | n + 2 =>
      have h := congrArg (eval 1) (bonnet (K := K) n)
      simp only [eval_mul, eval_C, eval_sub, eval_X, ih n (by omega), ih (n + 1) (by omega)] at h
      have h2 : (n + 2 : K) ≠ 0 := by exact_mod_cast Nat.succ_ne_zero (n + 1)
      apply mul_left_cancel₀ h2
      rw [h]; ring

theorem legendre_eval_neg_one (n : ℕ) : (P n).eval (-1) = (-1) ^ n := by
  induction n using Nat.strongRecOn with
  | ind n ih =>
    match n with
    | 0 => simp [legendre_zero]
    | 1 => simp [legendre_one]
    | n + 2 =>
      have h := congrArg (eval (-1)) (bonnet (K := K) n)
      simp only [eval_mul, eval_C, eval_sub, eval_X, ih n (by omega), ih (n + 1) (by omega)] at h
      have h2 : (n + 2 : K) ≠ 0 := by exact_mod_cast Nat.succ_ne_zero (n + 1)
      apply mul_left_cancel₀ h2
      rw [h]; ring

/-- Leading coefficient of the Legendre polynomial. -/
noncomputable def lead (K : Type*) [Field K] : ℕ → K
  | 0 => 1
  | n + 1 => (2 * n + 1) / (n + 1) * lead K n

theorem lead_ge_one {K : Type*} [Field K] [LinearOrder K] [IsStrictOrderedRing K] (n : ℕ) : 1 ≤ lead K n := by
  induction n with
  | zero => simp [lead]
  | succ n ih =>
    rw [lead]
    have h : (0 : K) < n + 1 := by positivity
    have : (1 : K) ≤ (2 * n + 1) / (n + 1) := by
      rw [le_div_iff₀ h]
      have : (0 : K) ≤ n := Nat.cast_nonneg n
      linarith
    calc (1 : K) = 1 * 1 := by ring
      _ ≤ _ := mul_le_mul this ih zero_le_one (by linarith)

theorem lead_ne_zero (n : ℕ) : lead K n ≠ 0 := by
  induction n with
  | zero => simp [lead]
  | succ n ih =>
    rw [lead]
    have h : (n + 1 : K) ≠ 0 := by exact_mod_cast Nat.succ_ne_zero n
    have h' : (2 * n + 1 : K) ≠ 0 := by exact_mod_cast Nat.succ_ne_zero (2 * n)
    exact mul_ne_zero (div_ne_zero h' h) ih

theorem legendre_degree (n : ℕ) : (P n).natDegree ≤ n ∧ (P n).coeff n = lead K n := by
  induction n using Nat.strongRecOn with
  | ind n ih =>
    match n with
    | 0 => simp [legendre_zero, lead]
    | 1 => simp [legendre_one, lead]
    | n + 2 =>
      have h2 : (n + 2 : K) ≠ 0 := by exact_mod_cast Nat.succ_ne_zero (n + 1)
      have hb : P (n + 2) = C ((n + 2 : K)⁻¹) * (C (2 * (n + 1) + 1 : K) * (X * P (n + 1)) - C (n + 1 : K) * P n) := by
        rw [← bonnet, ← mul_assoc, ← C_mul, inv_mul_cancel₀ h2, C_1, one_mul]
      obtain ⟨a1, a2⟩ := ih n (by omega)
      obtain ⟨b1, b2⟩ := ih (n + 1) (by omega)
      constructor
      · rw [hb]
        refine (natDegree_C_mul_le _ _).trans ((natDegree_sub_le _ _).trans (max_le ?_ ?_))
        · refine (natDegree_C_mul_le _ _).trans ((natDegree_mul_le).trans ?_)
          have := natDegree_X_le (R := K)
          omega
        · exact (natDegree_C_mul_le _ _).trans (by omega)
      · rw [hb, coeff_C_mul, coeff_sub, coeff_C_mul, coeff_C_mul, coeff_X_mul, b2,
          coeff_eq_zero_of_natDegree_lt (show (P n).natDegree < n + 2 by omega), lead]
        rw [show lead K (n + 2) = (2 * ((n + 1 : ℕ) : K) + 1) / (((n + 1 : ℕ) : K) + 1) * lead K (n + 1) from rfl, lead]
        have h1 : (n + 1 : K) ≠ 0 := by exact_mod_cast Nat.succ_ne_zero n
        push_cast
        have h3 : (n + 1 + 1 : K) ≠ 0 := by rw [add_assoc]; norm_num; exact h2
        field_simp
        ring

theorem legendre_natDegree (n : ℕ) : (P n).natDegree = n := by
  obtain ⟨h1, h2⟩ := legendre_degree (K := K) n
  refine le_antisymm h1 (le_natDegree_of_ne_zero ?_)
  rw [h2]; exact lead_ne_zero n

end PolyMPC.Spec
