import Mathlib.Analysis.Calculus.Taylor
import Mathlib.Analysis.Calculus.MeanValue
import Mathlib.Analysis.Calculus.Deriv.Polynomial
import Mathlib.LinearAlgebra.Lagrange
import Mathlib.Analysis.SpecialFunctions.Exp

/-!
# Error of collocation

A polynomial whose derivative is close to the right-hand side of a differential equation at some nodes is close to the solution.
-/

set_option linter.unusedSectionVars false

namespace PolyMPC.Colloc
open Polynomial Set Finset

/-- A bound on the derivative at `N` nodes bounds the growth of a polynomial of degree at most `N`. -/
theorem poly_growth {N : ℕ} {v : Fin N → ℝ} (hv : Function.Injective v) {a h Lam B : ℝ} (hh : 0 ≤ h) (hm : ∀ j, v j ∈ Icc a (a + h))
    (hL : ∑ j, ∏ k ∈ univ.erase j, h / |v j - v k| ≤ Lam) {D : ℝ[X]} (hD : D.natDegree ≤ N) (hB : 0 ≤ B) (hB' : ∀ j, |D.derivative.eval (v j)| ≤ B) :
    ∀ t ∈ Icc a (a + h), |D.eval t - D.eval a| ≤ h * (Lam * B) := by
  have hL0 : 0 ≤ ∑ j, ∏ k ∈ univ.erase j, h / |v j - v k| := Finset.sum_nonneg fun j _ => Finset.prod_nonneg fun k _ => div_nonneg hh (abs_nonneg _)
  have hd : ∀ t ∈ Icc a (a + h), |D.derivative.eval t| ≤ Lam * B := by
    intro t ht
    have hdeg : D.derivative.degree < (univ : Finset (Fin N)).card := by
      rw [Finset.card_univ, Fintype.card_fin]
      rcases Nat.eq_zero_or_pos D.natDegree with h0 | h0
      · have : D.derivative = 0 := by rw [eq_C_of_natDegree_eq_zero h0, derivative_C]
        rw [this, degree_zero]
        exact WithBot.bot_lt_coe _
      · have := degree_derivative_lt (p := D) (fun hz => by rw [hz, natDegree_zero] at h0; exact lt_irrefl _ h0)
        exact lt_of_lt_of_le this (le_trans degree_le_natDegree (by exact_mod_cast hD))
    rw [Lagrange.eq_interpolate (s := univ) hv.injOn hdeg, Lagrange.interpolate_apply, eval_finsetSum]
    refine le_trans (Finset.abs_sum_le_sum_abs _ _) ?_
    calc ∑ j, |((C (D.derivative.eval (v j))) * Lagrange.basis univ v j).eval t| ≤ ∑ j, B * ∏ k ∈ univ.erase j, h / |v j - v k| := by
          refine Finset.sum_le_sum fun j _ => ?_
          rw [eval_mul, eval_C, abs_mul]
          refine mul_le_mul (hB' j) ?_ (abs_nonneg _) hB
          rw [Lagrange.basis, eval_prod, Finset.abs_prod]
          refine Finset.prod_le_prod (fun k _ => abs_nonneg _) fun k hk => ?_
          have hne : v j - v k ≠ 0 := sub_ne_zero.2 fun e => (Finset.ne_of_mem_erase hk) (hv e).symm
          rw [Lagrange.basisDivisor, eval_mul, eval_C, eval_sub, eval_X, eval_C, abs_mul, abs_inv, inv_mul_eq_div]
          refine div_le_div_of_nonneg_right ?_ (abs_nonneg _)
          have := hm k
          rw [abs_le]
          constructor <;> linarith [ht.1, ht.2, this.1, this.2]
      _ = (∑ j, ∏ k ∈ univ.erase j, h / |v j - v k|) * B := by rw [← Finset.mul_sum, mul_comm]
      _ ≤ Lam * B := mul_le_mul_of_nonneg_right hL hB
  intro t ht
  have h1 : a ∈ Icc a (a + h) := ⟨le_rfl, by linarith⟩
  have hm := (convex_Icc a (a + h)).norm_image_sub_le_of_norm_hasDerivWithin_le (f := fun t => D.eval t) (f' := fun t => D.derivative.eval t)
    (C := Lam * B) (fun x _ => (D.hasDerivAt x).hasDerivWithinAt) (fun x hx => hd x hx) h1 ht
  rw [Real.norm_eq_abs, Real.norm_eq_abs] at hm
  refine hm.trans ?_
  rw [mul_comm]
  refine mul_le_mul_of_nonneg_right ?_ (mul_nonneg (hL0.trans hL) hB)
  rw [abs_of_nonneg (by linarith [ht.1])]
  linarith [ht.2]

/-- A function whose derivative is `m + 1` times continuously differentiable is close to a polynomial of degree `m + 1`, with its derivative. -/
theorem taylor_poly {m : ℕ} {a h M : ℝ} (hh : 0 ≤ h) {y v : ℝ → ℝ} (hy : ∀ t ∈ Icc a (a + h), HasDerivWithinAt y (v t) (Icc a (a + h)) t)
    (hv : ContDiffOn ℝ (m + 1) v (Icc a (a + h))) (hM : ∀ t ∈ Icc a (a + h), |iteratedDerivWithin (m + 1) v (Icc a (a + h)) t| ≤ M) :
    ∃ P : ℝ[X], P.natDegree ≤ m + 1 ∧ P.eval a = y a ∧ (∀ t ∈ Icc a (a + h), |v t - P.derivative.eval t| ≤ M * h ^ (m + 1) / m.factorial) ∧
      ∀ t ∈ Icc a (a + h), |y t - P.eval t| ≤ h * (M * h ^ (m + 1) / m.factorial) := by
  let c : ℕ → ℝ := fun k => (k.factorial : ℝ)⁻¹ * iteratedDerivWithin k v (Icc a (a + h)) a
  let P : ℝ[X] := ∑ k ∈ Finset.range (m + 1), C (c k / (k + 1)) * (X - C a) ^ (k + 1) + C (y a)
  have h1 : a ∈ Icc a (a + h) := ⟨le_rfl, by linarith⟩
  have hM0 : 0 ≤ M := (abs_nonneg _).trans (hM a h1)
  have hP' : ∀ t, P.derivative.eval t = taylorWithinEval v m (Icc a (a + h)) a t := by
    intro t
    rw [taylor_within_apply]
    simp only [P, derivative_add, derivative_C, add_zero, derivative_sum, derivative_C_mul, eval_finsetSum]
    refine Finset.sum_congr rfl fun k _ => ?_
    rw [derivative_pow]
    simp only [derivative_sub, derivative_X, derivative_C, sub_zero, mul_one, Nat.add_sub_cancel, eval_mul, eval_C, eval_pow, eval_sub, eval_X, smul_eq_mul, c]
    have : (k : ℝ) + 1 ≠ 0 := by positivity
    push_cast
    field_simp
  have hb : ∀ t ∈ Icc a (a + h), |v t - P.derivative.eval t| ≤ M * h ^ (m + 1) / m.factorial := by
    intro t ht
    rw [hP']
    refine (taylor_mean_remainder_bound (by linarith) hv ht hM).trans ?_
    refine div_le_div_of_nonneg_right (mul_le_mul_of_nonneg_left (pow_le_pow_left₀ (by linarith [ht.1]) (by linarith [ht.2]) _) hM0) (by positivity)
  refine ⟨P, ?_, ?_, hb, fun t ht => ?_⟩
  · refine (natDegree_add_le _ _).trans (max_le (natDegree_sum_le_of_forall_le _ _ fun k hk => ?_) (by rw [natDegree_C]; omega))
    refine (natDegree_C_mul_le _ _).trans (natDegree_pow_le.trans ?_)
    rw [natDegree_X_sub_C, mul_one]
    have := Finset.mem_range.1 hk
    omega
  · simp [P, eval_finsetSum]
  · have hd := (convex_Icc a (a + h)).norm_image_sub_le_of_norm_hasDerivWithin_le (f := fun t => y t - P.eval t) (f' := fun t => v t - P.derivative.eval t)
      (C := M * h ^ (m + 1) / m.factorial) (fun x hx => (hy x hx).sub (P.hasDerivAt x).hasDerivWithinAt) (fun x hx => hb x hx) h1 ht
    have he : P.eval a = y a := by simp [P, eval_finsetSum]
    simp only [he, sub_self, sub_zero, Real.norm_eq_abs] at hd
    refine hd.trans ?_
    rw [mul_comm]
    refine mul_le_mul_of_nonneg_right ?_ (by positivity)
    rw [abs_of_nonneg (by linarith [ht.1])]
    linarith [ht.2]

/-- Values that are bounded by `A + q` times any common bound of them. -/
theorem selfbound {ι : Type*} [Finite ι] {w : ι → ℝ} {A q : ℝ} (hA : 0 ≤ A) (hq : q < 1) (h : ∀ B, 0 ≤ B → (∀ i, w i ≤ B) → ∀ i, w i ≤ A + q * B) (i : ι) : w i ≤ A / (1 - q) := by
  have : Nonempty ι := ⟨i⟩
  obtain ⟨j, hj⟩ := Finite.exists_max w
  have h1 : 0 < 1 - q := by linarith
  rw [le_div_iff₀ h1]
  rcases le_or_gt 0 (w j) with h0 | h0
  · have := h (w j) h0 hj j
    nlinarith [hj i]
  · have := hj i
    nlinarith

/-- **One segment.** The polynomials `Q i` satisfy the equation at the nodes up to `ε`. -/
theorem segment {n m : ℕ} {v : Fin (m + 1) → ℝ} (hv : Function.Injective v) {a h Lam : ℝ} (hh : 0 ≤ h) (hm : ∀ j, v j ∈ Icc a (a + h))
    (hL : ∑ j, ∏ k ∈ univ.erase j, h / |v j - v k| ≤ Lam) {y r : Fin n → ℝ → ℝ} {L M ε e0 : ℝ} (hL0 : 0 ≤ L) (hε : 0 ≤ ε) (he0 : 0 ≤ e0) (hM0 : 0 ≤ M) (hz : h * Lam * L < 1)
    (hy : ∀ i, ∀ t ∈ Icc a (a + h), HasDerivWithinAt (y i) (r i t) (Icc a (a + h)) t)
    (hr : ∀ i, ContDiffOn ℝ (m + 1) (r i) (Icc a (a + h))) (hM : ∀ i, ∀ t ∈ Icc a (a + h), |iteratedDerivWithin (m + 1) (r i) (Icc a (a + h)) t| ≤ M)
    {Q : Fin n → ℝ[X]} (hQ : ∀ i, (Q i).natDegree ≤ m + 1) (h0 : ∀ i, |(Q i).eval a - y i a| ≤ e0)
    (hc : ∀ j i B, (∀ i, |(Q i).eval (v j) - y i (v j)| ≤ B) → |(Q i).derivative.eval (v j) - r i (v j)| ≤ L * B + ε) :
    ∀ i, ∀ t ∈ Icc a (a + h), |(Q i).eval t - y i t| ≤ (e0 + h * (Lam * ε + (Lam + 1) * (M * h ^ (m + 1) / m.factorial))) / (1 - h * Lam * L) := by
  have hLam : 0 ≤ Lam := (Finset.sum_nonneg fun j _ => Finset.prod_nonneg fun k _ => div_nonneg hh (abs_nonneg _)).trans hL
  have ha : a ∈ Icc a (a + h) := ⟨le_rfl, by linarith⟩
  set R := M * h ^ (m + 1) / m.factorial with hR
  have hR0 : 0 ≤ R := by positivity
  choose P p1 p2 p3 p4 using fun i => taylor_poly hh (hy i) (hr i) (hM i)
  intro i₀ t₀ ht₀
  let pt : Fin n × Option (Fin (m + 1)) → ℝ := fun x => (x.2.elim t₀ v)
  have hpt : ∀ x, pt x ∈ Icc a (a + h) := by
    rintro ⟨i, _ | j⟩
    · exact ht₀
    · exact hm j
  have key : ∀ x : Fin n × Option (Fin (m + 1)), |(Q x.1).eval (pt x) - y x.1 (pt x)| ≤ (e0 + h * (Lam * ε + (Lam + 1) * R)) / (1 - h * Lam * L) := by
    refine selfbound (by positivity) hz fun B hB hb x => ?_
    have hgrow := poly_growth hv hh hm hL (D := Q x.1 - P x.1) ((natDegree_sub_le _ _).trans (max_le (hQ _) (p1 _))) (B := L * B + ε + R) (by positivity) (fun j => by
      rw [derivative_sub, eval_sub]
      have e1 := hc j x.1 B fun i => hb (i, some j)
      have e2 := p3 x.1 (v j) (hm j)
      have : (Q x.1).derivative.eval (v j) - (P x.1).derivative.eval (v j)
          = ((Q x.1).derivative.eval (v j) - r x.1 (v j)) + (r x.1 (v j) - (P x.1).derivative.eval (v j)) := by ring
      rw [this]
      exact (abs_add_le _ _).trans (add_le_add e1 e2)) (pt x) (hpt x)
    rw [eval_sub, eval_sub, p2] at hgrow
    have e3 := p4 x.1 (pt x) (hpt x)
    have e4 := h0 x.1
    rw [abs_le] at hgrow e3 e4 ⊢
    constructor <;> nlinarith [hgrow.1, hgrow.2, e3.1, e3.2, e4.1, e4.2]
  exact key (i₀, none)

/-- Errors that grow by a factor and a constant in every segment. -/
theorem chain {e : ℕ → ℝ} {S : ℕ} {z δ : ℝ} (hδ : 0 ≤ δ) (hz0 : 0 ≤ z) (hz : z ≤ 1 / 2) (h0 : 0 ≤ e 0) (hs : ∀ s < S, e (s + 1) ≤ (e s + δ) / (1 - z)) :
    ∀ s ≤ S, e s ≤ Real.exp (2 * z * s) * (e 0 + s * δ) := by
  have h1 : 1 / (1 - z) ≤ Real.exp (2 * z) := by
    have : 1 / (1 - z) ≤ 2 * z + 1 := by
      rw [div_le_iff₀ (by linarith)]
      nlinarith
    exact this.trans (Real.add_one_le_exp _)
  intro s
  induction s with
  | zero => intro _; simp
  | succ k ih =>
    intro hk
    have h2 := ih (by omega)
    have h3 := hs k (by omega)
    have hE : 1 ≤ Real.exp (2 * z * k) := Real.one_le_exp (by positivity)
    have h4 : e k + δ ≤ Real.exp (2 * z * k) * (e 0 + (k + 1) * δ) := by nlinarith
    have h5 : (e k + δ) / (1 - z) ≤ Real.exp (2 * z * k) * (e 0 + (k + 1) * δ) * (1 / (1 - z)) := by
      rw [mul_one_div]
      exact div_le_div_of_nonneg_right h4 (by linarith)
    have h6 : 0 ≤ Real.exp (2 * z * k) * (e 0 + (k + 1) * δ) := by positivity
    refine h3.trans (h5.trans ((mul_le_mul_of_nonneg_left h1 h6).trans (le_of_eq ?_)))
    push_cast
    rw [show 2 * z * ((k : ℝ) + 1) = 2 * z * k + 2 * z by ring, Real.exp_add]
    ring

end PolyMPC.Colloc
