import Verif.Model.PolyMath
import Verif.Spec.Polynomial
import Mathlib.Algebra.Polynomial.Coeff
import Mathlib.Data.Fin.VecNotation
import Mathlib.Tactic.Linarith
import Mathlib.Tactic.Ring
import Mathlib.Tactic.FieldSimp
import Mathlib.Tactic.NormNum

/-!
# Property C29: polynomial coefficient routines
-/

set_option linter.unusedSectionVars false

namespace PolyMPC.PolyMath
open PolyMPC.Spec Polynomial

variable {K : Type*} [Field K] [LinearOrder K]

theorem toPoly_coeff {n : ℕ} (p : Fin n → K) (k : ℕ) : (toPoly p).coeff k = if h : k < n then p ⟨k, h⟩ else 0 := by
  unfold toPoly
  rw [finsetSum_coeff]
  simp only [coeff_C_mul, coeff_X_pow, mul_ite, mul_one, mul_zero]
  split
  · rename_i h
    rw [Finset.sum_eq_single ⟨k, h⟩]
    · simp
    · intro b _ hb; rw [if_neg]; intro hk; exact hb (Fin.ext hk.symm)
    · simp
  · rename_i h
    refine Finset.sum_eq_zero fun i _ => if_neg ?_
    have := i.isLt; omega

/-- C29. `poly_diff` returns the coefficients of the derivative. -/
theorem polyDiff_derivative {n : ℕ} (p : Fin n → K) : toPoly (polyDiff p) = derivative (toPoly p) := by
  ext k
  rw [toPoly_coeff, coeff_derivative, toPoly_coeff]
  unfold polyDiff
  by_cases h1 : k + 1 < n
  · rw [dif_pos (by omega : k < n), dif_pos h1, dif_pos h1]
    push_cast; ring
  · rw [dif_neg h1, zero_mul]
    split
    · rfl
    · rfl

example : polyDiff (![5, 1, -2, 4] : Fin 4 → ℚ) = ![1, -4, 12, 0] := by decide +kernel

theorem lastNonzero_fold {n : ℕ} (eps : K) (p : Fin n → K) (l : List (Fin n)) (hl : l.Pairwise (· < ·)) :
    (∀ k, l.foldl (fun acc i => if |p i| ≥ eps then some i else acc) none = some k →
      |p k| ≥ eps ∧ k ∈ l ∧ ∀ i ∈ l, k < i → |p i| < eps) ∧
    (l.foldl (fun acc i => if |p i| ≥ eps then some i else acc) none = none → ∀ i ∈ l, |p i| < eps) := by
  induction l using List.reverseRecOn with
  | nil => simp
  | append_singleton l x ih =>
    rw [List.pairwise_append] at hl
    obtain ⟨h1, -, h2⟩ := hl
    obtain ⟨ih1, ih2⟩ := ih h1
    rw [List.foldl_append]
    simp only [List.foldl_cons, List.foldl_nil]
    by_cases hx : |p x| ≥ eps
    · simp only [if_pos hx, Option.some.injEq, reduceCtorEq, false_imp_iff, and_true]
      rintro k rfl
      refine ⟨hx, by simp, fun i hi hxi => ?_⟩
      rw [List.mem_append, List.mem_singleton] at hi
      rcases hi with hi | rfl
      · exact absurd (h2 i hi x (by simp)) (lt_asymm hxi)
      · exact absurd hxi (lt_irrefl _)
    · rw [if_neg hx]
      push Not at hx
      refine ⟨fun k hk => ?_, fun hn i hi => ?_⟩
      · obtain ⟨a, b, c⟩ := ih1 k hk
        refine ⟨a, by simp [b], fun i hi hki => ?_⟩
        rw [List.mem_append, List.mem_singleton] at hi
        rcases hi with hi | rfl
        · exact c i hi hki
        · exact hx
      · rw [List.mem_append, List.mem_singleton] at hi
        rcases hi with hi | rfl
        · exact ih2 hn i hi
        · exact hx

theorem lastNonzero_eq_some {n : ℕ} {eps : K} {p : Fin n → K} {k : Fin n} :
    lastNonzero eps p = some k ↔ eps ≤ |p k| ∧ ∀ i, k < i → |p i| < eps := by
  have hs : (List.finRange n).Pairwise (· < ·) := List.pairwise_lt_finRange n
  obtain ⟨h1, h2⟩ := lastNonzero_fold eps p _ hs
  constructor
  · intro h
    obtain ⟨a, -, c⟩ := h1 k h
    exact ⟨a, fun i hi => c i (List.mem_finRange i) hi⟩
  · rintro ⟨a, c⟩
    cases h : lastNonzero eps p with
    | none => exact absurd (h2 h k (List.mem_finRange k)) (not_lt.mpr a)
    | some m =>
      obtain ⟨a', -, c'⟩ := h1 m h
      rcases lt_trichotomy k m with hk | hk | hk
      · exact absurd (c m hk) (not_lt.mpr a')
      · rw [hk]
      · exact absurd (c' k (List.mem_finRange k) hk) (not_lt.mpr a)

theorem lastNonzero_eq_none {n : ℕ} {eps : K} {p : Fin n → K} :
    lastNonzero eps p = none ↔ ∀ i, |p i| < eps := by
  constructor
  · intro h i
    exact (lastNonzero_fold eps p _ (List.pairwise_lt_finRange n)).2 h i (List.mem_finRange i)
  · intro h
    cases hk : lastNonzero eps p with
    | none => rfl
    | some k => exact absurd (h k) (not_lt.mpr (lastNonzero_eq_some.mp hk).1)

theorem mulInner_spec {n : ℕ} (p1 p2 : Fin n → K) (i a : Fin n) :
    ∀ (fuel j : ℕ) (prod : Fin n → K), n ≤ fuel + j → i.val + j ≤ n →
      mulInner p1 p2 i a fuel j prod = some fun k =>
        if h : i.val + j ≤ k.val ∧ k.val - i.val ≤ a.val then p1 ⟨k.val - i.val, by omega⟩ * p2 i else prod k := by
  intro fuel
  induction fuel with
  | zero =>
    intro j prod h1 h2
    simp only [mulInner, Option.some.injEq]
    funext k
    rw [dif_neg]
    rintro ⟨h3, -⟩
    have := k.isLt
    omega
  | succ fuel ih =>
    intro j prod h1 h2
    rw [mulInner]
    by_cases hj : j ≤ a.val
    · rw [dif_pos hj]
      by_cases he : i.val + j = n
      · rw [if_pos he]
        congr 1; funext k
        rw [dif_neg]
        rintro ⟨h3, -⟩
        have := k.isLt
        omega
      · rw [if_neg he, dif_pos (by omega), ih (j + 1) _ (by omega) (by omega)]
        congr 1; funext k
        by_cases hk : i.val + j = k.val
        · rw [dif_neg (by omega), dif_pos (by omega)]
          have hkj : k.val - i.val = j := by omega
          rw [Function.update_apply, if_pos (Fin.ext hk.symm)]
          simp only [hkj]
        · rw [Function.update_of_ne (fun h => hk (by rw [h]))]
          by_cases h3 : i.val + j ≤ k.val ∧ k.val - i.val ≤ a.val
          · rw [dif_pos h3, dif_pos (by omega)]
          · rw [dif_neg h3, dif_neg (by omega)]
    · rw [dif_neg hj]
      congr 1; funext k
      rw [dif_neg]
      omega

theorem mulOuter_spec {n : ℕ} (p1 p2 : Fin n → K) (a b : Fin n) :
    ∀ (fuel i : ℕ) (prod : Fin n → K), n ≤ fuel + i →
      mulOuter p1 p2 a b fuel i prod = some fun k =>
        if h : i ≤ min b.val k.val ∧ k.val - min b.val k.val ≤ a.val then
          p1 ⟨k.val - min b.val k.val, by omega⟩ * p2 ⟨min b.val k.val, by omega⟩
        else prod k := by
  intro fuel
  induction fuel with
  | zero =>
    intro i prod h1
    simp only [mulOuter, Option.some.injEq]
    funext k
    rw [dif_neg]
    rintro ⟨h3, -⟩
    have := k.isLt
    omega
  | succ fuel ih =>
    intro i prod h1
    rw [mulOuter]
    by_cases hi : i ≤ b.val
    · rw [dif_pos hi, mulInner_spec _ _ _ _ _ _ _ (by omega) (by have := b.isLt; simp only; omega)]
      rw [Option.bind_some, ih (i + 1) _ (by omega)]
      congr 1; funext k
      by_cases h2 : i + 1 ≤ min b.val k.val ∧ k.val - min b.val k.val ≤ a.val
      · rw [dif_pos h2, dif_pos ⟨by omega, h2.2⟩]
      · rw [dif_neg h2]
        by_cases h3 : i ≤ min b.val k.val ∧ k.val - min b.val k.val ≤ a.val
        · rw [dif_pos h3]
          have hm : min b.val k.val = i := by omega
          rw [dif_pos (by simp only; omega)]
          congr 1
          · congr 1; exact Fin.ext (by simp only [hm])
          · congr 1; exact Fin.ext (by simp only [hm])
        · rw [dif_neg h3, dif_neg]
          simp only
          omega
    · rw [dif_neg hi]
      congr 1; funext k
      rw [dif_neg]
      omega

/-- Closed form of `poly_mul`: each product coefficient is a single term of the convolution. -/
theorem polyMul_eq {n : ℕ} {eps : K} {p1 p2 : Fin n → K} {a b : Fin n} (ha : lastNonzero eps p1 = some a)
    (hb : lastNonzero eps p2 = some b) :
    polyMul eps p1 p2 = some fun k =>
        if h : k.val - min b.val k.val ≤ a.val then
          p1 ⟨k.val - min b.val k.val, by omega⟩ * p2 ⟨min b.val k.val, by omega⟩
        else 0 := by
  unfold polyMul
  rw [ha, hb, Option.bind_some, Option.bind_some, mulOuter_spec _ _ _ _ _ _ _ (by omega)]
  congr 1; funext k
  simp

/-- C29. `poly_mul` reads an uninitialised variable exactly when one factor has only negligible coefficients. -/
theorem polyMul_undefined_iff {n : ℕ} (eps : K) (p1 p2 : Fin n → K) :
    polyMul eps p1 p2 = none ↔ (∀ i, |p1 i| < eps) ∨ (∀ i, |p2 i| < eps) := by
  rw [← lastNonzero_eq_none, ← lastNonzero_eq_none]
  cases ha : lastNonzero eps p1 with
  | none => simp [polyMul, ha]
  | some a =>
    cases hb : lastNonzero eps p2 with
    | none => simp [polyMul, ha, hb]
    | some b => simp [polyMul_eq ha hb]

/-- No coefficient of `p` is nonzero but negligible. -/
def Clean (eps : K) {n : ℕ} (p : Fin n → K) : Prop := ∀ i, p i = 0 ∨ eps ≤ |p i|

theorem clean_after {n : ℕ} {eps : K} {p : Fin n → K} (hc : Clean eps p) {a : Fin n} (ha : lastNonzero eps p = some a)
    {i : Fin n} (hi : a < i) : p i = 0 := by
  rcases hc i with h | h
  · exact h
  · exact absurd ((lastNonzero_eq_some.mp ha).2 i hi) (not_lt.mpr h)

theorem polyMul_monomial_aux [IsStrictOrderedRing K] {n : ℕ} {eps : K} {p : Fin n → K} {a : Fin n}
    (ha : lastNonzero eps p = some a) (h0 : ∀ i, a < i → p i = 0) (m : Fin n) (c : K)
    (he : 0 < eps) (hce : eps ≤ |c|) :
    ∃ q, polyMul eps p (fun i => if i = m then c else 0) = some q ∧
      ∀ k, k < n → (toPoly q).coeff k = (toPoly p * (C c * X ^ m.val)).coeff k := by
  have hb : lastNonzero eps (fun i => if i = m then c else 0) = some m := by
    rw [lastNonzero_eq_some]
    refine ⟨by simpa using hce, fun i hi => ?_⟩
    rw [if_neg hi.ne', abs_zero]; exact he
  refine ⟨_, polyMul_eq ha hb, fun k hk => ?_⟩
  rw [toPoly_coeff, dif_pos hk, ← mul_assoc, coeff_mul_X_pow', mul_comm (toPoly p), coeff_C_mul, toPoly_coeff]
  simp only
  by_cases hm : m.val ≤ k
  · have hmin : min m.val k = m.val := min_eq_left hm
    rw [if_pos hm, dif_pos (by omega : k - m.val < n)]
    by_cases h2 : k - m.val ≤ a.val
    · rw [dif_pos (by rw [hmin]; exact h2), if_pos (Fin.ext (by simp only [hmin]))]
      simp only [hmin]; ring
    · rw [dif_neg (by rw [hmin]; exact h2), h0, mul_zero]
      exact Fin.lt_def.mpr (by simp only; omega)
  · have hmin : min m.val k = k := min_eq_right (by omega)
    rw [if_neg hm]
    split
    · rw [if_neg, mul_zero]
      intro h
      have := congrArg Fin.val h
      simp only [hmin] at this
      omega
    · rfl

/-- C29. Multiplication by a monomial is exact, up to the truncation to `n` coefficients. -/
theorem polyMul_monomial [IsStrictOrderedRing K] {n : ℕ} {eps : K} {p : Fin n → K} (hc : Clean eps p)
    (hp : ∃ i, eps ≤ |p i|) (m : Fin n) (c : K) (he : 0 < eps) (hce : eps ≤ |c|) :
    ∃ q, polyMul eps p (fun i => if i = m then c else 0) = some q ∧
      ∀ k, k < n → (toPoly q).coeff k = (toPoly p * (C c * X ^ m.val)).coeff k := by
  obtain ⟨a, ha⟩ : ∃ a, lastNonzero eps p = some a := by
    cases h : lastNonzero eps p with
    | some a => exact ⟨a, rfl⟩
    | none => obtain ⟨i, hi⟩ := hp; exact absurd (lastNonzero_eq_none.mp h i) (not_lt.mpr hi)
  exact polyMul_monomial_aux ha (fun i hi => clean_after hc ha hi) m c he hce

/-- Non-vacuity and a concrete value: `(5 + x - 2x²) x` with four coefficients. -/
example : polyMul (1 / 2 ^ 52) (![5, 1, -2, 0] : Fin 4 → ℚ) ![0, 1, 0, 0] = some ![0, 5, 1, -2] := by decide +kernel

/-- C29. The general product is wrong: `(1 + x)²` comes out as `1 + x + x²` for every number of coefficients `n ≥ 3`. -/
theorem polyMul_wrong {n : ℕ} (hn : 3 ≤ n) {eps : K} [IsStrictOrderedRing K] (h0 : 0 < eps) (h1 : eps ≤ 1) :
    ∃ p q : Fin n → K, toPoly p = 1 + X ∧ polyMul eps p p = some q ∧ toPoly q = 1 + X + X ^ 2 ∧
      toPoly q ≠ toPoly p * toPoly p := by
  set p : Fin n → K := fun i => if i.val ≤ 1 then 1 else 0 with hpdef
  have hp : toPoly p = 1 + X := by
    ext k
    rw [toPoly_coeff, coeff_add, coeff_one, coeff_X]
    rcases k with - | - | k
    · rw [dif_pos (by omega)]; simp [hpdef]
    · rw [dif_pos (by omega)]; simp [hpdef]
    · split <;> simp [hpdef]
  have hl : lastNonzero eps p = some ⟨1, by omega⟩ := by
    rw [lastNonzero_eq_some]
    refine ⟨by simpa [hpdef] using h1, fun i hi => ?_⟩
    have : ¬ i.val ≤ 1 := by have := Fin.lt_def.mp hi; simp only at this; omega
    simpa [hpdef, this] using h0
  have hq := polyMul_eq hl hl
  have hqp : toPoly (fun k : Fin n =>
        if h : k.val - min 1 k.val ≤ 1 then
          p ⟨k.val - min 1 k.val, by omega⟩ * p ⟨min 1 k.val, by omega⟩
        else 0) = 1 + X + X ^ 2 := by
    ext k
    rw [toPoly_coeff, coeff_add, coeff_add, coeff_one, coeff_X, coeff_X_pow]
    rcases k with - | - | - | k
    · rw [dif_pos (by omega)]; simp [hpdef]
    · rw [dif_pos (by omega)]; simp [hpdef]
    · rw [dif_pos (by omega)]; simp [hpdef]
    · split <;> simp
  refine ⟨p, _, hp, hq, hqp, ?_⟩
  rw [hqp, hp]
  intro h
  have := congrArg (fun r => Polynomial.coeff r 1) h
  have e : ((1 : K[X]) + X) * (1 + X) = 1 + 2 * X + X ^ 2 := by ring
  simp only [e, coeff_add, coeff_one, coeff_X, coeff_X_pow] at this
  rw [show ((2 : K[X])) = C 2 from rfl, coeff_C_mul, coeff_X] at this
  norm_num at this

end PolyMPC.PolyMath
