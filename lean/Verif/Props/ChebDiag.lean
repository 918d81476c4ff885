import Verif.Props.Chebyshev

/-!
# The diagonal of the Chebyshev differentiation matrix (C225)

The code computes the diagonal as the negative sum of the rest of the row; these are the closed forms.
-/

namespace PolyMPC.Cheb
open Polynomial Real

/-- The diagonal entry in terms of the polynomial that vanishes at the nodes. -/
theorem diag_nodal {N : ℕ} (hN : 1 ≤ N) (i : Fin (N + 1)) :
    2 * diffMatrix N i i * (derivative (nodal N)).eval (nodes N i) = (derivative (derivative (nodal N))).eval (nodes N i) := by
  obtain ⟨q, hq⟩ := dvd_iff_isRoot.2 (show (nodal N).IsRoot (nodes N i) from nodal_eval hN i)
  have hdeg : q.natDegree ≤ N := by
    by_cases h0 : q = 0
    · rw [h0]; simp
    · have h := nodal_natDegree hN
      rw [hq, natDegree_mul (X_sub_C_ne_zero _) h0, natDegree_X_sub_C] at h
      omega
  have hd1 : derivative (nodal N) = q + (X - C (nodes N i)) * derivative q := by
    rw [hq, derivative_mul]; simp
  have hd2 : derivative (derivative (nodal N)) = 2 * derivative q + (X - C (nodes N i)) * derivative (derivative q) := by
    rw [hd1, derivative_add, derivative_mul]; simp; ring
  have h := diffMatrix_exact hN hdeg i
  rw [Finset.sum_eq_single i (fun j _ hj => by
    have hz := nodal_eval hN j
    rw [hq, eval_mul, eval_sub, eval_X, eval_C] at hz
    rcases mul_eq_zero.1 hz with hz | hz
    · exact absurd (nodes_injective (sub_eq_zero.1 hz)) hj
    · rw [hz, mul_zero]) (fun hh => absurd (Finset.mem_univ i) hh)] at h
  rw [hd2, hd1]
  simp only [eval_add, eval_mul, eval_sub, eval_X, eval_C, sub_self, zero_mul, add_zero, eval_ofNat]
  linear_combination 2 * h

open Polynomial.Chebyshev hiding C in
/-- Two expressions for the second derivative of that polynomial. -/
theorem nodal_second {N : ℕ} (hN : 1 ≤ N) (x : ℝ) :
    (derivative (derivative (nodal N))).eval x
      = (1 + (N : ℝ) ^ 2) * (U ℝ ((N : ℤ) - 1)).eval x + x * (derivative (U ℝ ((N : ℤ) - 1))).eval x ∧
    (derivative (derivative (nodal N))).eval x = 2 * (U ℝ ((N : ℤ) - 1)).eval x + 4 * x * (derivative (U ℝ ((N : ℤ) - 1))).eval x
      + (x ^ 2 - 1) * (derivative (derivative (U ℝ ((N : ℤ) - 1)))).eval x ∧
    (derivative (nodal N)).eval x = 2 * x * (U ℝ ((N : ℤ) - 1)).eval x + (x ^ 2 - 1) * (derivative (U ℝ ((N : ℤ) - 1))).eval x := by
  refine ⟨?_, ?_, ?_⟩
  · rw [nodal_derivative hN, derivative_add, derivative_mul, derivative_mul, T_derivative_eq_U]
    simp
    ring
  · rw [nodal]
    simp [derivative_mul, derivative_add]
    ring
  · rw [nodal]
    simp [derivative_mul]
    norm_num

/-- **C225.** Inside: `-x / (2 (1 - x²))`. -/
theorem diag_inner {N : ℕ} (i : Fin (N + 1)) (h0 : i.val ≠ 0) (h1 : i.val ≠ N) :
    diffMatrix N i i = -nodes N i / (2 * (1 - nodes N i ^ 2)) := by
  have hN : 1 ≤ N := by have := i.2; omega
  have h := diag_nodal hN i
  obtain ⟨e1, -, e3⟩ := nodal_second hN (nodes N i)
  have hd := nodal_derivative_eval hN i
  rw [U_node hN, if_neg h0, if_neg h1] at e1 e3
  have hne : (derivative (nodal N)).eval (nodes N i) ≠ 0 := by
    rw [hd]
    exact mul_ne_zero (by exact_mod_cast (by omega : N ≠ 0)) (cVec_ne_zero i)
  set u' := (derivative (Chebyshev.U ℝ ((N : ℤ) - 1))).eval (nodes N i)
  rw [e1] at h
  have hx : nodes N i ^ 2 - 1 ≠ 0 := fun hx => hne (by rw [e3, hx]; ring)
  have hu : u' ≠ 0 := fun hu => hne (by rw [e3, hu]; ring)
  rw [e3] at h
  have hx' : 1 - nodes N i ^ 2 ≠ 0 := fun hh => hx (by linarith)
  rw [eq_div_iff (mul_ne_zero two_ne_zero hx')]
  refine mul_right_cancel₀ hu ?_
  linear_combination -h

/-- **C225.** The first corner. -/
theorem diag_first {N : ℕ} (hN : 1 ≤ N) : diffMatrix N 0 0 = (2 * (N : ℝ) ^ 2 + 1) / 6 := by
  have h := diag_nodal hN 0
  obtain ⟨e1, e2, e3⟩ := nodal_second hN (nodes N 0)
  have hN0 : (N : ℝ) ≠ 0 := by exact_mod_cast (by omega : N ≠ 0)
  rw [U_node hN, if_pos (show ((0 : Fin (N + 1)) : ℕ) = 0 from rfl), (nodes_ends hN).1] at e1 e2 e3
  rw [(nodes_ends hN).1, e3] at h
  set u' := (derivative (Chebyshev.U ℝ ((N : ℤ) - 1))).eval 1
  rw [e1] at h e2
  refine mul_left_cancel₀ hN0 ?_
  have hu : 3 * u' = (N : ℝ) ^ 3 - N := by linear_combination -e2
  linear_combination h / 4 + hu / 12

/-- **C225.** The last corner. -/
theorem diag_last {N : ℕ} (hN : 1 ≤ N) : diffMatrix N (Fin.last N) (Fin.last N) = -((2 * (N : ℝ) ^ 2 + 1) / 6) := by
  have h := diffMatrix_rev hN (0 : Fin (N + 1)) 0
  rw [diag_first hN] at h
  simpa [Fin.rev_zero] using h

/-- **C225.** A diagonal entry is zero only in the middle of a matrix of even order. -/
theorem diag_zero_iff {N : ℕ} (hN : 1 ≤ N) (i : Fin (N + 1)) : diffMatrix N i i = 0 ↔ 2 * i.val = N := by
  constructor
  · intro h
    have hp : (0 : ℝ) < (2 * (N : ℝ) ^ 2 + 1) / 6 := by positivity
    by_cases h0 : i.val = 0
    · rw [show i = 0 from Fin.ext h0, diag_first hN] at h; linarith
    by_cases h1 : i.val = N
    · rw [show i = Fin.last N from Fin.ext h1, diag_last hN] at h; linarith
    rw [diag_inner i h0 h1, div_eq_zero_iff] at h
    have hx : nodes N i = 0 := by
      rcases h with h | h
      · linarith
      · exfalso
        have hl : nodes N i < 1 := by
          rw [← (nodes_ends hN).1]
          exact nodes_strictAnti (by rw [Fin.lt_def, show ((0 : Fin (N + 1)) : ℕ) = 0 from rfl]; omega)
        have hg : -1 < nodes N i := by
          rw [← (nodes_ends hN).2]
          exact nodes_strictAnti (by rw [Fin.lt_def, Fin.val_last]; have := i.2; omega)
        nlinarith
    have hr : i.rev = i := nodes_injective (by rw [nodes_rev hN, hx, neg_zero])
    have hv := congrArg Fin.val hr
    rw [Fin.val_rev] at hv
    have := i.2
    omega
  · intro h
    have hr : i.rev = i := Fin.ext (by rw [Fin.val_rev]; omega)
    have e := diffMatrix_rev hN i i
    rw [hr] at e
    linarith

/-- The orders 2 and 3: the diagonals are `3/2, 0, -3/2` and `19/6, -1/3, 1/3, -19/6`. -/
example : diffMatrix 2 1 1 = 0 ∧ diffMatrix 2 0 0 = 3 / 2 ∧ diffMatrix 3 0 0 = 19 / 6 ∧ ∀ i, diffMatrix 3 i i ≠ 0 := by
  refine ⟨(diag_zero_iff (by omega) 1).2 rfl, ?_, ?_, fun i h => ?_⟩
  · rw [diag_first (by omega)]; norm_num
  · rw [diag_first (by omega)]; norm_num
  · have := (diag_zero_iff (by omega) i).1 h
    omega

end PolyMPC.Cheb
