import Verif.Props.PolyMath
import Verif.Lemmas.Legendre

/-!
# Property C30: the generated Legendre basis
-/

set_option linter.unusedSectionVars false

namespace PolyMPC.PolyMath
open PolyMPC.Spec Polynomial

variable {K : Type*} [Field K] [LinearOrder K] [IsStrictOrderedRing K]

theorem toPoly_injective {n : ℕ} {p q : Fin n → K} (h : toPoly p = toPoly q) : p = q := by
  funext i
  have := congrArg (fun r => Polynomial.coeff r i.val) h
  simpa only [toPoly_coeff, dif_pos i.isLt] using this

theorem xVec_eq {N : ℕ} (hN : 1 ≤ N) :
    (xVec N : Fin (N + 1) → K) = fun i => if i = (⟨1, by omega⟩ : Fin (N + 1)) then 1 else 0 := by
  funext i
  unfold xVec
  simp only [Fin.ext_iff]

theorem basisLoop_spec {eps : K} (h0 : 0 < eps) (h1 : eps ≤ 1) {N : ℕ} :
    ∀ (fuel n : ℕ) (cols : Fin (N + 1) → Fin (N + 1) → K), 1 ≤ n → n ≤ N → N ≤ fuel + n →
      (∀ m : Fin (N + 1), m.val ≤ n → toPoly (cols m) = legendre K m.val) →
      ∃ L, basisLoop eps N fuel n cols = some L ∧ ∀ m : Fin (N + 1), toPoly (L m) = legendre K m.val := by
  intro fuel
  induction fuel with
  | zero =>
    intro n cols hn1 hnN hf hc
    exact ⟨cols, rfl, fun m => hc m (by have := m.isLt; omega)⟩
  | succ fuel ih =>
    intro n cols hn1 hnN hf hc
    rw [basisLoop]
    by_cases hn : n < N
    · rw [dif_pos hn]
      have hcn : ∀ k, (toPoly (cols ⟨n, by omega⟩)).coeff k = (legendre K n).coeff k := fun k => by
        rw [hc ⟨n, by omega⟩ le_rfl]
      have ha : lastNonzero eps (cols ⟨n, by omega⟩) = some ⟨n, by omega⟩ := by
        rw [lastNonzero_eq_some]
        constructor
        · have := hcn n
          rw [toPoly_coeff, dif_pos (by omega), (legendre_degree n).2] at this
          rw [this]
          exact h1.trans ((lead_ge_one n).trans (le_abs_self _))
        · intro i hi
          have := hcn i.val
          rw [toPoly_coeff, dif_pos i.isLt, coeff_eq_zero_of_natDegree_lt
            (lt_of_le_of_lt (legendre_degree n).1 (Fin.lt_def.mp hi))] at this
          rw [this, abs_zero]; exact h0
      obtain ⟨q, hq, hq2⟩ := polyMul_monomial_aux ha (fun i hi => by
          have := hcn i.val
          rwa [toPoly_coeff, dif_pos i.isLt, coeff_eq_zero_of_natDegree_lt
            (lt_of_le_of_lt (legendre_degree n).1 (Fin.lt_def.mp hi))] at this)
          (⟨1, by omega⟩ : Fin (N + 1)) 1 h0 (by rwa [abs_one])
      rw [xVec_eq (by omega), hq, Option.bind_some]
      apply ih (n + 1) _ (by omega) (by omega) (by omega)
      intro m hm
      by_cases hmn : m.val = n + 1
      · have hm' : m = ⟨n + 1, by omega⟩ := Fin.ext hmn
        rw [hm', Function.update_self]
        have hqx : toPoly q = X * legendre K n := by
          ext k
          by_cases hk : k < N + 1
          · rw [hq2 k hk, hc ⟨n, by omega⟩ le_rfl]
            simp only [C_1, one_mul, pow_one]
            rw [mul_comm]
          · rw [toPoly_coeff, dif_neg hk, coeff_eq_zero_of_natDegree_lt]
            refine lt_of_le_of_lt natDegree_mul_le ?_
            have := natDegree_X_le (R := K)
            have := (legendre_degree (K := K) n).1
            omega
        obtain ⟨n, rfl⟩ : ∃ n', n = n' + 1 := ⟨n - 1, by omega⟩
        have hp : toPoly (cols ⟨n + 1 - 1, by omega⟩) = legendre K n := hc ⟨n + 1 - 1, by omega⟩ (by simp)
        have hlin : ∀ (α β : K) (u v : Fin (N + 1) → K),
            toPoly (fun i => α * u i - β * v i) = C α * toPoly u - C β * toPoly v := by
          intro α β u v
          ext k
          simp only [toPoly_coeff, coeff_sub, coeff_C_mul]
          split <;> simp
        rw [hlin, hqx, hp]
        have h2 : (n + 2 : K) ≠ 0 := by exact_mod_cast Nat.succ_ne_zero (n + 1)
        have : legendre K (n + 2) = C ((n + 2 : K)⁻¹) * (C (2 * (n + 1) + 1 : K) * (X * legendre K (n + 1)) -
            C (n + 1 : K) * legendre K n) := by
          rw [← bonnet, ← mul_assoc, ← C_mul, inv_mul_cancel₀ h2, C_1, one_mul]
        have e1 : ((2 * (n + 1) + 1 : ℕ) : K) / ((n + 1 + 1 : ℕ) : K) = (n + 2 : K)⁻¹ * (2 * (n + 1) + 1) := by
          push_cast; rw [div_eq_inv_mul]; congr 2; ring
        have e2 : ((n + 1 : ℕ) : K) / ((n + 1 + 1 : ℕ) : K) = (n + 2 : K)⁻¹ * (n + 1) := by
          push_cast; rw [div_eq_inv_mul]; congr 2; ring
        rw [show (⟨n + 1 + 1, by omega⟩ : Fin (N + 1)).val = n + 2 from rfl, this, e1, e2, C_mul, C_mul]
        ring
      · rw [Function.update_of_ne (fun h => hmn (by rw [h]))]
        exact hc m (by omega)
    · rw [dif_neg hn]
      exact ⟨cols, rfl, fun m => hc m (by have := m.isLt; omega)⟩

/-- C30. For every order `N ≥ 1` the generated basis consists of the Legendre polynomials (Rodrigues' formula). -/
theorem computeBasis_legendre {eps : K} (h0 : 0 < eps) (h1 : eps ≤ 1) {N : ℕ} (hN : 1 ≤ N) :
    ∃ L, computeBasis eps N = some L ∧ ∀ m : Fin (N + 1), toPoly (L m) = legendre K m.val := by
  unfold computeBasis
  rw [if_neg (by omega)]
  refine basisLoop_spec h0 h1 N 1 _ le_rfl hN (by omega) fun m hm => ?_
  ext k
  rw [toPoly_coeff]
  obtain hm0 | hm1 : m.val = 0 ∨ m.val = 1 := by omega
  · rw [hm0, legendre_zero, coeff_one]
    by_cases hk : k < N + 1
    · rw [dif_pos hk]
      simp only [basisStart, hm0, Fin.ext_iff]
      simp
    · rw [dif_neg hk, if_neg (by omega)]
  · rw [hm1, legendre_one, coeff_X]
    by_cases hk : k < N + 1
    · rw [dif_pos hk]
      simp only [basisStart, hm1, Fin.ext_iff]
      simp [eq_comm]
    · rw [dif_neg hk, if_neg (by omega)]

/-- C30. The generated polynomials: degree, boundary values, Bonnet's recurrence and Legendre's differential equation. -/
theorem computeBasis_properties {eps : K} (h0 : 0 < eps) (h1 : eps ≤ 1) {N : ℕ} (hN : 1 ≤ N) :
    ∃ L, computeBasis eps N = some L ∧
      (∀ m : Fin (N + 1), (toPoly (L m)).natDegree = m.val ∧ (toPoly (L m)).eval 1 = 1 ∧
        (toPoly (L m)).eval (-1) = (-1) ^ m.val ∧
        derivative ((1 - X ^ 2) * derivative (toPoly (L m))) = - (C (m.val * (m.val + 1) : K) * toPoly (L m))) ∧
      ∀ n (h : n + 2 ≤ N), C (n + 2 : K) * toPoly (L ⟨n + 2, by omega⟩) =
        C (2 * (n + 1) + 1 : K) * (X * toPoly (L ⟨n + 1, by omega⟩)) - C (n + 1 : K) * toPoly (L ⟨n, by omega⟩) := by
  obtain ⟨L, hL, h⟩ := computeBasis_legendre h0 h1 hN
  refine ⟨L, hL, fun m => ?_, fun n hn => ?_⟩
  · rw [h m]
    exact ⟨legendre_natDegree _, legendre_eval_one _, legendre_eval_neg_one _, legendre_ode _⟩
  · rw [h, h, h]
    exact bonnet n

/-- C30. Order zero is undefined: the constructor writes `Ln(1,1)` of a 1×1 matrix. -/
theorem computeBasis_order_zero (eps : K) : computeBasis eps 0 = none := rfl

/-- A concrete basis: orders 0 to 3. -/
example : computeBasis (1 / 2 ^ 52 : ℚ) 3 = some ![![1, 0, 0, 0], ![0, 1, 0, 0], ![-1/2, 0, 3/2, 0], ![0, -3/2, 0, 5/2]] := by
  decide +kernel

end PolyMPC.PolyMath
