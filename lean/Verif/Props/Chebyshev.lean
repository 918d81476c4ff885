import Verif.Lemmas.Chebyshev
import Verif.Lemmas.LagrangeDiff
import Mathlib.Analysis.SpecialFunctions.Trigonometric.Chebyshev.RootsExtrema

/-!
# Chebyshev collocation: nodes (C31), differentiation matrix (C32), Clenshaw-Curtis quadrature (C33), projection (C73)
-/

namespace PolyMPC.Cheb
open Real Polynomial

/-! ### C31: nodes -/

theorem angle_mem {N : ℕ} (i : Fin (N + 1)) : (i.val : ℝ) * (π / N) ∈ Set.Icc 0 π := by
  have hi : (i.val : ℝ) ≤ N := by exact_mod_cast Nat.lt_succ_iff.mp i.isLt
  rcases Nat.eq_zero_or_pos N with h | h
  · subst h; simp [pi_pos.le]
  · have hN : (0 : ℝ) < N := by exact_mod_cast h
    refine ⟨by positivity, ?_⟩
    rw [mul_div_assoc', div_le_iff₀ hN]
    nlinarith [pi_pos]

/-- C31. The nodes run strictly downwards. -/
theorem nodes_strictAnti {N : ℕ} : StrictAnti (nodes N) := by
  intro i j hij
  have hN : (0 : ℝ) < N := by
    have : 0 < N := by have := j.isLt; have := i.isLt; have : i.val < j.val := hij; omega
    exact_mod_cast this
  refine strictAntiOn_cos (angle_mem i) (angle_mem j) ?_
  have : (i.val : ℝ) < j.val := by exact_mod_cast hij
  exact mul_lt_mul_of_pos_right this (div_pos pi_pos hN)

/-- C31. The first node is `1` and the last is `-1`. -/
theorem nodes_ends {N : ℕ} (hN : 1 ≤ N) : nodes N 0 = 1 ∧ nodes N (Fin.last N) = -1 := by
  have hN0 : (N : ℝ) ≠ 0 := by exact_mod_cast (by omega : N ≠ 0)
  refine ⟨by simp [nodes], ?_⟩
  have : ((Fin.last N).val : ℝ) * (π / N) = π := by rw [Fin.val_last]; field_simp
  rw [nodes, this, cos_pi]

/-- C31. The grid is symmetric. -/
theorem nodes_rev {N : ℕ} (hN : 1 ≤ N) (i : Fin (N + 1)) : nodes N i.rev = -nodes N i := by
  have hN0 : (N : ℝ) ≠ 0 := by exact_mod_cast (by omega : N ≠ 0)
  have hi : i.val ≤ N := Nat.lt_succ_iff.mp i.isLt
  have : (i.rev.val : ℝ) * (π / N) = π - i.val * (π / N) := by
    rw [Fin.val_rev, show N + 1 - (i.val + 1) = N - i.val by omega, Nat.cast_sub hi]
    field_simp
  rw [nodes, this, cos_pi_sub]; rfl

theorem nodes_injective {N : ℕ} : Function.Injective (nodes N) := nodes_strictAnti.injective

/-- C31. The nodes are exactly the points of `[-1,1]` where `T_N` has modulus one. -/
theorem nodes_range {N : ℕ} (hN : 1 ≤ N) (x : ℝ) :
    (x ∈ Set.range (nodes N)) ↔ x ∈ Set.Icc (-1 : ℝ) 1 ∧ |(Chebyshev.T ℝ N).eval x| = 1 := by
  have hN0 : (N : ℝ) ≠ 0 := by exact_mod_cast (by omega : N ≠ 0)
  have hNp : (0 : ℝ) < N := by positivity
  constructor
  · rintro ⟨i, rfl⟩
    refine ⟨⟨neg_one_le_cos _, cos_le_one _⟩, ?_⟩
    rw [nodes, Chebyshev.T_real_cos]
    have : ((N : ℤ) : ℝ) * (i.val * (π / N)) = ((i.val : ℤ) : ℝ) * π := by push_cast; field_simp
    rw [this, cos_int_mul_pi, abs_zpow, abs_neg, abs_one, one_zpow]
  · rintro ⟨hx, h⟩
    rw [← cos_arccos hx.1 hx.2, Chebyshev.T_real_cos, abs_eq (by norm_num)] at h
    have hs : sin (((N : ℤ) : ℝ) * arccos x) = 0 := by
      have := sin_sq_add_cos_sq (((N : ℤ) : ℝ) * arccos x)
      rcases h with h | h <;> rw [h] at this <;> nlinarith
    obtain ⟨n, hn⟩ := sin_eq_zero_iff.mp hs
    push_cast at hn
    have h0 := arccos_nonneg x
    have hpi := arccos_le_pi x
    have hn0 : 0 ≤ n := by
      by_contra hc
      have : (n : ℝ) ≤ -1 := by exact_mod_cast (by omega : n ≤ -1)
      have : (N : ℝ) * arccos x < 0 := by rw [← hn]; nlinarith [pi_pos]
      nlinarith [mul_nonneg hNp.le h0]
    have hnN : n ≤ N := by
      by_contra hc
      have : (N : ℝ) + 1 ≤ n := by exact_mod_cast (by omega : (N : ℤ) + 1 ≤ n)
      nlinarith [pi_pos]
    refine ⟨⟨n.toNat, by omega⟩, ?_⟩
    rw [nodes]
    have : ((n.toNat : ℕ) : ℝ) * (π / N) = arccos x := by
      have e : ((n.toNat : ℕ) : ℝ) = (n : ℝ) := by exact_mod_cast Int.toNat_of_nonneg hn0
      rw [e]; field_simp; linarith
    simp only [this]
    exact cos_arccos hx.1 hx.2

/-! ### C32: differentiation matrix -/

open Polynomial.Chebyshev in
/-- The polynomial vanishing at the nodes. -/
noncomputable def nodal (N : ℕ) : ℝ[X] := (X ^ 2 - 1) * U ℝ ((N : ℤ) - 1)

open Polynomial.Chebyshev hiding C in
theorem nodal_derivative {N : ℕ} (hN : 1 ≤ N) : derivative (nodal N) = X * U ℝ ((N : ℤ) - 1) + (N : ℝ[X]) * T ℝ N := by
  obtain ⟨n, rfl⟩ : ∃ n, N = n + 1 := ⟨N - 1, by omega⟩
  have h := add_one_mul_T_eq_poly_in_U (R := ℝ) (n : ℤ)
  have e : (((n + 1 : ℕ) : ℤ) - 1) = n := by push_cast; ring
  have e2 : (((n + 1 : ℕ) : ℤ)) = (n : ℤ) + 1 := by push_cast; ring
  rw [nodal, derivative_mul, e, e2]
  have hd : derivative ((X : ℝ[X]) ^ 2 - 1) = X + X := by simp; ring
  rw [hd]
  push_cast at h ⊢
  linear_combination -h

open Polynomial.Chebyshev in
theorem U_node {N : ℕ} (hN : 1 ≤ N) (i : Fin (N + 1)) :
    (U ℝ ((N : ℤ) - 1)).eval (nodes N i) = if i.val = 0 then (N : ℝ) else if i.val = N then (-1) ^ (N - 1) * N else 0 := by
  obtain ⟨n, rfl⟩ : ∃ n, N = n + 1 := ⟨N - 1, by omega⟩
  have e : (((n + 1 : ℕ) : ℤ) - 1) = n := by push_cast; ring
  rw [e]
  split_ifs with h0 h1
  · rw [show i = 0 from Fin.ext h0, (nodes_ends hN).1, U_eval_one]; push_cast; ring
  · rw [show i = Fin.last _ from Fin.ext h1, (nodes_ends hN).2, U_eval_neg_one]
    simp
  · have hi : i.val < n + 1 := by have := i.isLt; omega
    have hpos : 0 < sin (i.val * (π / (n + 1 : ℕ))) := by
      refine sin_pos_of_pos_of_lt_pi ?_ ?_
      · have : (0 : ℝ) < i.val := by exact_mod_cast Nat.pos_of_ne_zero h0
        have := pi_pos
        positivity
      · have : (i.val : ℝ) < (n + 1 : ℕ) := by exact_mod_cast hi
        have hp : (0 : ℝ) < (n + 1 : ℕ) := by positivity
        rw [mul_div_assoc', div_lt_iff₀ hp]
        nlinarith [pi_pos]
    have h := U_real_cos (i.val * (π / (n + 1 : ℕ))) (n : ℤ)
    have hz : sin ((((n : ℤ) : ℝ) + 1) * (i.val * (π / (n + 1 : ℕ)))) = 0 := by
      have : ((((n : ℤ) : ℝ) + 1) * (i.val * (π / (n + 1 : ℕ)))) = i.val * π := by
        push_cast; field_simp
      rw [this, sin_nat_mul_pi]
    rw [hz] at h
    rcases mul_eq_zero.mp h with h | h
    · exact h
    · exact absurd h hpos.ne'

open Polynomial.Chebyshev in
theorem T_node {N : ℕ} (k : ℕ) (i : Fin (N + 1)) :
    (T ℝ k).eval (nodes N i) = cos (k * (i.val * (π / N))) := by
  rw [nodes, T_real_cos]; simp

theorem T_node_top {N : ℕ} (hN : 1 ≤ N) (i : Fin (N + 1)) : (Chebyshev.T ℝ N).eval (nodes N i) = (-1) ^ i.val := by
  have hN0 : (N : ℝ) ≠ 0 := by exact_mod_cast (by omega : N ≠ 0)
  rw [T_node, show (N : ℝ) * (i.val * (π / N)) = i.val * π by field_simp, cos_nat_mul_pi]

theorem nodal_eval {N : ℕ} (hN : 1 ≤ N) (i : Fin (N + 1)) : (nodal N).eval (nodes N i) = 0 := by
  rw [nodal, eval_mul, U_node hN]
  split_ifs with h0 h1
  · rw [show i = 0 from Fin.ext h0, (nodes_ends hN).1]; simp
  · rw [show i = Fin.last _ from Fin.ext h1, (nodes_ends hN).2]; simp
  · simp

theorem nodal_derivative_eval {N : ℕ} (hN : 1 ≤ N) (i : Fin (N + 1)) :
    (derivative (nodal N)).eval (nodes N i) = N * cVec N i := by
  rw [nodal_derivative hN, eval_add, eval_mul, eval_mul, eval_X, U_node hN, T_node_top hN]
  have hc : ((N : ℝ[X])).eval (nodes N i) = N := by simp
  rw [hc, cVec]
  by_cases h0 : i.val = 0
  · rw [if_pos h0, if_pos (Or.inl h0), show nodes N i = 1 by rw [show i = 0 from Fin.ext h0, (nodes_ends hN).1], h0]
    ring
  · by_cases h1 : i.val = N
    · rw [if_neg h0, if_pos h1, if_pos (Or.inr h1), h1, show nodes N i = -1 by
        rw [show i = Fin.last _ from Fin.ext h1, (nodes_ends hN).2]]
      obtain ⟨n, rfl⟩ : ∃ n, N = n + 1 := ⟨N - 1, by omega⟩
      rw [Nat.add_sub_cancel, pow_succ]; ring
    · rw [if_neg h0, if_neg h1, if_neg (by tauto)]; ring

theorem cVec_ne_zero {N : ℕ} (i : Fin (N + 1)) : cVec N i ≠ 0 := by
  unfold cVec; split_ifs <;> simp

theorem nodal_natDegree {N : ℕ} (hN : 1 ≤ N) : (nodal N).natDegree ≤ N + 1 := by
  obtain ⟨n, rfl⟩ : ∃ n, N = n + 1 := ⟨N - 1, by omega⟩
  have e : (((n + 1 : ℕ) : ℤ) - 1) = n := by push_cast; ring
  rw [nodal, e]
  refine natDegree_mul_le.trans ?_
  rw [Chebyshev.natDegree_U_natCast]
  have : ((X : ℝ[X]) ^ 2 - 1).natDegree ≤ 2 := by
    refine (natDegree_sub_le _ _).trans ?_
    simp
  omega

/-- The off-diagonal entries are the derivatives of the Lagrange basis. -/
theorem diffMatrix_off {N : ℕ} (hN : 1 ≤ N) {i j : Fin (N + 1)} (hij : i ≠ j) :
    diffMatrix N i j = (derivative (Lagrange.basis Finset.univ (nodes N) j)).eval (nodes N i) := by
  have hN0 : (N : ℝ) ≠ 0 := by exact_mod_cast (by omega : N ≠ 0)
  have hc := cVec_ne_zero j
  rw [PolyMPC.Lagrange.derivative_basis_of_vanishing (q := nodal N) nodes_injective
    (by rw [Fintype.card_fin]; exact nodal_natDegree hN) (nodal_eval hN) hij
    (by rw [nodal_derivative_eval hN]; exact mul_ne_zero hN0 hc),
    nodal_derivative_eval hN, nodal_derivative_eval hN, mul_div_mul_left _ _ hN0]
  rw [diffMatrix, Matrix.sub_apply, Matrix.diagonal_apply_ne _ hij, sub_zero, Dn, Matrix.of_apply, if_neg hij, add_zero]
  rw [div_div, div_eq_mul_inv, mul_inv, mul_assoc]

/-- C32. Every row of the differentiation matrix sums to zero: constants have derivative zero. -/
theorem diffMatrix_row_sum {N : ℕ} (i : Fin (N + 1)) : ∑ j, diffMatrix N i j = 0 := by
  simp [diffMatrix, Matrix.sub_apply, Finset.sum_sub_distrib, Matrix.diagonal_apply]

/-- C32. The differentiation matrix maps the node values of a polynomial of degree at most `N` to the node values of
its derivative. -/
theorem diffMatrix_exact {N : ℕ} (hN : 1 ≤ N) {p : ℝ[X]} (hp : p.natDegree ≤ N) (i : Fin (N + 1)) :
    ∑ j, diffMatrix N i j * p.eval (nodes N j) = (derivative p).eval (nodes N i) := by
  refine PolyMPC.Lagrange.diff_exact nodes_injective (fun i j h => diffMatrix_off hN h) diffMatrix_row_sum ?_ i
  rw [Fintype.card_fin]
  exact lt_of_le_of_lt degree_le_natDegree (by exact_mod_cast Nat.lt_succ_of_le hp)

/-- C32. The matrix is determined by that: any matrix which differentiates all polynomials of degree at most `N` exactly
on the nodes is the one the code computes. -/
theorem diffMatrix_unique {N : ℕ} (hN : 1 ≤ N) (E : Matrix (Fin (N + 1)) (Fin (N + 1)) ℝ)
    (hE : ∀ p : ℝ[X], p.natDegree ≤ N → ∀ i, ∑ j, E i j * p.eval (nodes N j) = (derivative p).eval (nodes N i)) :
    E = diffMatrix N := by
  ext i k
  have hdeg : (Lagrange.basis Finset.univ (nodes N) k).natDegree ≤ N := by
    refine natDegree_le_of_degree_le ?_
    rw [Lagrange.degree_basis nodes_injective.injOn (Finset.mem_univ k)]
    simp
  have h1 := hE _ hdeg i
  have h2 := diffMatrix_exact hN hdeg i
  rw [← h2] at h1
  have hk : ∀ j, (Lagrange.basis Finset.univ (nodes N) k).eval (nodes N j) = if j = k then 1 else 0 := by
    intro j
    split_ifs with h
    · rw [h, Lagrange.eval_basis_self nodes_injective.injOn (Finset.mem_univ k)]
    · exact Lagrange.eval_basis_of_ne (Ne.symm h) (Finset.mem_univ j)
  simpa [hk] using h1

/-- C32. Reversing both indices changes the sign. -/
theorem diffMatrix_rev {N : ℕ} (hN : 1 ≤ N) (i j : Fin (N + 1)) : diffMatrix N i.rev j.rev = -diffMatrix N i j := by
  have h := diffMatrix_unique hN (Matrix.of fun i j => -diffMatrix N i.rev j.rev) ?_
  · have := congrFun (congrFun h i) j
    simp only [Matrix.of_apply] at this
    linarith
  · intro p hp i
    have hq : (p.comp (-X)).natDegree ≤ N := by
      refine natDegree_comp_le.trans ?_
      simpa using hp
    have := diffMatrix_exact hN hq i.rev
    rw [← Equiv.sum_comp Fin.revPerm] at this
    simp only [Fin.revPerm_apply, eval_comp, eval_neg, eval_X, nodes_rev hN, neg_neg, derivative_comp, eval_mul,
      derivative_neg, derivative_X, eval_one] at this
    simp only [Matrix.of_apply, neg_mul, Finset.sum_neg_distrib, this]
    ring

/-! ### C33: Clenshaw-Curtis quadrature -/

theorem ccLoop_eq (θ : ℝ) (M : ℕ) (v : ℝ) :
    ccLoop θ M v = v - ∑ k ∈ Finset.range M, 2 / (4 * ((k + 1 : ℕ) : ℝ) ^ 2 - 1) * cos (2 * ((k + 1 : ℕ) : ℝ) * θ) := by
  induction M with
  | zero => simp [ccLoop]
  | succ M ih =>
    rw [Finset.sum_range_succ, ← sub_sub, ← ih]
    simp [ccLoop, List.range_succ, List.foldl_append]

theorem cc_telescope (M : ℕ) : (1 : ℝ) - ∑ k ∈ Finset.range M, 2 / (4 * ((k + 1 : ℕ) : ℝ) ^ 2 - 1) = 1 / (2 * (M : ℝ) + 1) := by
  induction M with
  | zero => simp
  | succ M ih =>
    rw [Finset.sum_range_succ, ← sub_sub, ih]
    push_cast
    have h1 : (2 * (M : ℝ) + 1) ≠ 0 := by positivity
    have h2 : (2 * ((M : ℝ) + 1) + 1) ≠ 0 := by positivity
    have h3 : 4 * ((M : ℝ) + 1) ^ 2 - 1 ≠ 0 := by
      have : 4 * ((M : ℝ) + 1) ^ 2 - 1 = (2 * M + 1) * (2 * (M + 1) + 1) := by ring
      rw [this]; positivity
    field_simp
    ring

/-- The density the weights sample. -/
noncomputable def ccV (N : ℕ) (θ : ℝ) : ℝ :=
  1 - ∑ k ∈ Finset.range ((N - 1) / 2), 2 / (4 * ((k + 1 : ℕ) : ℝ) ^ 2 - 1) * cos (2 * ((k + 1 : ℕ) : ℝ) * θ) -
    if N % 2 = 0 then cos (N * θ) / ((N : ℝ) ^ 2 - 1) else 0

theorem ccV_ends {N : ℕ} (hN : 1 ≤ N) {θ : ℝ} (hθ : ∀ k : ℕ, cos (2 * (k : ℝ) * θ) = 1) :
    ccV N θ = if N % 2 = 0 then (N : ℝ) / ((N : ℝ) ^ 2 - 1) else 1 / (N : ℝ) := by
  have hs : ∑ k ∈ Finset.range ((N - 1) / 2), 2 / (4 * ((k + 1 : ℕ) : ℝ) ^ 2 - 1) * cos (2 * ((k + 1 : ℕ) : ℝ) * θ) =
      ∑ k ∈ Finset.range ((N - 1) / 2), 2 / (4 * ((k + 1 : ℕ) : ℝ) ^ 2 - 1) :=
    Finset.sum_congr rfl fun k _ => by rw [hθ, mul_one]
  rw [ccV, hs, cc_telescope]
  split_ifs with h
  · obtain ⟨m, rfl⟩ : ∃ m, N = 2 * (m + 1) := ⟨N / 2 - 1, by omega⟩
    have hc : cos (((2 * (m + 1) : ℕ) : ℝ) * θ) = 1 := by
      have := hθ (m + 1); push_cast at this ⊢; exact this
    rw [hc, show (2 * (m + 1) - 1) / 2 = m by omega]
    push_cast
    have h1 : (2 * (m : ℝ) + 1) ≠ 0 := by positivity
    have h2 : (2 * ((m : ℝ) + 1)) ^ 2 - 1 ≠ 0 := by
      have : (2 * ((m : ℝ) + 1)) ^ 2 - 1 = (2 * m + 1) * (2 * m + 3) := by ring
      rw [this]; positivity
    rw [sub_eq_iff_eq_add, ← add_div, eq_div_iff h2, div_mul_eq_mul_div, div_eq_iff h1]
    ring
  · obtain ⟨m, rfl⟩ : ∃ m, N = 2 * m + 1 := ⟨N / 2, by omega⟩
    rw [show (2 * m + 1 - 1) / 2 = m by omega]
    push_cast; ring

/-- The weights in one formula. -/
theorem intWeights_eq {N : ℕ} (hN : 1 ≤ N) (i : Fin (N + 1)) :
    intWeights N i = 2 / N * ((if i.val = 0 ∨ i.val = N then 1 / 2 else 1) * ccV N (i.val * (π / N))) := by
  have hN0 : (N : ℝ) ≠ 0 := by exact_mod_cast (by omega : N ≠ 0)
  unfold intWeights
  by_cases hi : i.val = 0 ∨ i.val = N
  · rw [if_pos hi, if_pos hi, ccV_ends hN]
    · split_ifs <;> field_simp
    · intro k
      rcases hi with h | h
      · rw [h]; simp
      · rw [h, show 2 * (k : ℝ) * ((N : ℝ) * (π / N)) = (k : ℝ) * (2 * π) by field_simp, cos_nat_mul_two_pi]
  · simp only [if_neg hi, one_mul]
    by_cases h2 : N % 2 = 0
    · rw [if_pos h2, ccLoop_eq, ccV, if_pos h2, show N / 2 - 1 = (N - 1) / 2 by omega]
      rfl
    · rw [if_neg h2, ccLoop_eq, ccV, if_neg h2, sub_zero]
      rfl

theorem trap_cc {N k : ℕ} (hN : 1 ≤ N) (hk : k ≤ N) :
    trap N (fun j => ccV N (j * (π / N)) * cos (k * (j * (π / N)))) =
      if k % 2 = 0 then N / (1 - (k : ℝ) ^ 2) else 0 := by
  have hN0 : (N : ℝ) ≠ 0 := by exact_mod_cast (by omega : N ≠ 0)
  -- values of the cosine products
  have prod : ∀ a : ℕ, a ≤ N → trap N (fun j => cos ((a : ℝ) * (j * (π / N))) * cos (k * (j * (π / N)))) =
      ((if a + k = 0 ∨ a + k = 2 * N then (N : ℝ) else 0) + (if a = k then (N : ℝ) else 0)) / 2 := by
    intro a ha
    have h := trap_mul (N := N) (a : ℤ) (k : ℤ)
    simp only [Int.cast_natCast] at h
    rw [h]
    congr 2
    · split_ifs with h1
      · refine trap_cos_eq hN ?_
        rcases h1 with h1 | h1
        · rw [show (a : ℤ) + k = 0 by omega]; exact dvd_zero _
        · rw [show (a : ℤ) + k = 2 * N by omega]
      · refine trap_cos_eq_zero hN ?_
        intro hd
        have := Int.le_of_dvd (by omega) hd
        omega
    · split_ifs with h1
      · refine trap_cos_eq hN ?_
        rw [h1, sub_self]; exact dvd_zero _
      · refine trap_cos_eq_zero hN ?_
        intro hd
        rw [← dvd_abs] at hd
        have := Int.le_of_dvd (abs_pos.mpr (by omega)) hd
        rcases abs_cases ((a : ℤ) - k) with h | h <;> omega
  -- expand
  have hexp : trap N (fun j => ccV N (j * (π / N)) * cos (k * (j * (π / N)))) =
      trap N (fun j => cos (((0 : ℕ) : ℝ) * (j * (π / N))) * cos (k * (j * (π / N)))) +
      (-1) * ∑ m ∈ Finset.range ((N - 1) / 2), 2 / (4 * ((m + 1 : ℕ) : ℝ) ^ 2 - 1) *
        trap N (fun j => cos (((2 * (m + 1) : ℕ) : ℝ) * (j * (π / N))) * cos (k * (j * (π / N)))) +
      (if N % 2 = 0 then -1 / ((N : ℝ) ^ 2 - 1) else 0) *
        trap N (fun j => cos ((N : ℝ) * (j * (π / N))) * cos (k * (j * (π / N)))) := by
    simp only [← trap_smul]
    rw [← trap_sum, ← trap_smul, ← trap_add, ← trap_add]
    congr 1
    funext j
    rw [ccV, Finset.mul_sum, sub_mul, sub_mul, Finset.sum_mul]
    have : ∑ m ∈ Finset.range ((N - 1) / 2), 2 / (4 * ((m + 1 : ℕ) : ℝ) ^ 2 - 1) * cos (2 * ((m + 1 : ℕ) : ℝ) * (j * (π / N))) *
        cos (k * (j * (π / N))) = - ∑ m ∈ Finset.range ((N - 1) / 2), -1 * (2 / (4 * ((m + 1 : ℕ) : ℝ) ^ 2 - 1) *
          (cos (((2 * (m + 1) : ℕ) : ℝ) * (j * (π / N))) * cos (k * (j * (π / N))))) := by
      rw [← Finset.sum_neg_distrib]
      refine Finset.sum_congr rfl fun m _ => ?_
      push_cast; ring
    rw [this]
    simp only [Nat.cast_zero, zero_mul, cos_zero]
    split_ifs <;> ring
  rw [hexp, prod 0 (by omega), prod N le_rfl]
  have hsum : ∑ m ∈ Finset.range ((N - 1) / 2), 2 / (4 * ((m + 1 : ℕ) : ℝ) ^ 2 - 1) *
        trap N (fun j => cos (((2 * (m + 1) : ℕ) : ℝ) * (j * (π / N))) * cos (k * (j * (π / N)))) =
      ∑ m ∈ Finset.range ((N - 1) / 2), if m = k / 2 - 1 ∧ k % 2 = 0 ∧ 2 ≤ k then (N : ℝ) / ((k : ℝ) ^ 2 - 1) else 0 := by
    refine Finset.sum_congr rfl fun m hm => ?_
    have hm := Finset.mem_range.mp hm
    rw [prod _ (by omega), if_neg (by omega)]
    by_cases hc : 2 * (m + 1) = k
    · rw [if_pos hc, if_pos (by omega), ← hc]
      push_cast
      have : (2 * ((m : ℝ) + 1)) ^ 2 - 1 ≠ 0 := by
        have : (2 * ((m : ℝ) + 1)) ^ 2 - 1 = (2 * m + 1) * (2 * m + 3) := by ring
        rw [this]; positivity
      have h4 : 4 * ((m : ℝ) + 1) ^ 2 - 1 ≠ 0 := by
        have : 4 * ((m : ℝ) + 1) ^ 2 - 1 = (2 * m + 1) * (2 * m + 3) := by ring
        rw [this]; positivity
      rw [show (2 * ((m : ℝ) + 1)) ^ 2 - 1 = 4 * ((m : ℝ) + 1) ^ 2 - 1 by ring]
      field_simp
      ring
    · rw [if_neg hc, if_neg (by omega)]; ring
  rw [hsum]
  by_cases hk2 : k % 2 = 0
  · rw [if_pos hk2]
    rcases Nat.eq_zero_or_pos k with h0 | hpos
    · subst h0
      rw [Finset.sum_congr rfl (g := fun _ => (0 : ℝ)) fun m _ => if_neg (by omega)]
      rw [if_neg (show ¬(N + 0 = 0 ∨ N + 0 = 2 * N) by omega), if_neg (show ¬ N = 0 by omega)]
      simp
    · have hkr : (k : ℝ) ^ 2 - 1 ≠ 0 := by
        have : (2 : ℝ) ≤ k := by exact_mod_cast (by omega : 2 ≤ k)
        nlinarith
      have hkr' : 1 - (k : ℝ) ^ 2 ≠ 0 := fun h => hkr (by linarith)
      rw [if_neg (show ¬(0 + k = 0 ∨ 0 + k = 2 * N) by omega), if_neg (show ¬ 0 = k by omega)]
      by_cases hkN : k = N
      · rw [Finset.sum_congr rfl (g := fun _ => (0 : ℝ)) fun m hm => if_neg (by have := Finset.mem_range.mp hm; omega)]
        rw [if_pos (show N + k = 0 ∨ N + k = 2 * N by omega), if_pos hkN.symm, ← hkN, if_pos hk2]
        simp
        field_simp
        ring
      · rw [if_neg (show ¬(N + k = 0 ∨ N + k = 2 * N) by omega), if_neg (Ne.symm hkN)]
        rw [Finset.sum_eq_single (k / 2 - 1) (fun m _ hm => if_neg (by tauto))
          (fun hm => absurd (Finset.mem_range.mpr (by omega)) hm), if_pos (by omega)]
        field_simp
        ring
  · rw [if_neg hk2]
    rw [Finset.sum_congr rfl (g := fun _ => (0 : ℝ)) fun m _ => if_neg (by omega)]
    rw [if_neg (show ¬(0 + k = 0 ∨ 0 + k = 2 * N) by omega), if_neg (show ¬ 0 = k by omega)]
    by_cases hkN : k = N
    · rw [if_neg (show ¬ N % 2 = 0 by omega)]; simp
    · rw [if_neg (show ¬(N + k = 0 ∨ N + k = 2 * N) by omega), if_neg (Ne.symm hkN)]; simp

/-- The weighted sum as a linear functional of the polynomial. -/
noncomputable def quadL {N : ℕ} (x w : Fin (N + 1) → ℝ) : ℝ[X] →ₗ[ℝ] ℝ where
  toFun p := ∑ i, p.eval (x i) * w i
  map_add' p q := by rw [← Finset.sum_add_distrib]; exact Finset.sum_congr rfl fun i _ => by rw [eval_add]; ring
  map_smul' c p := by
    rw [RingHom.id_apply, smul_eq_mul, Finset.mul_sum]
    exact Finset.sum_congr rfl fun i _ => by rw [eval_smul, smul_eq_mul]; ring

theorem T_natDegree (k : ℕ) : (Chebyshev.T ℝ k).natDegree = k := by
  rw [Chebyshev.natDegree_T]; simp

theorem T_ne_zero (k : ℕ) : Chebyshev.T ℝ k ≠ 0 := by
  intro h
  have := Chebyshev.T_eval_one ℝ k
  rw [h] at this; simp at this

/-- C33. Clenshaw-Curtis quadrature with the weights of the code integrates every polynomial of degree at most `N`
over `[-1,1]` exactly. -/
theorem intWeights_exact {N : ℕ} (hN : 1 ≤ N) {p : ℝ[X]} (hp : p.natDegree ≤ N) :
    ∑ i, p.eval (nodes N i) * intWeights N i = ∫ x in (-1 : ℝ)..1, p.eval x := by
  have hN0 : (N : ℝ) ≠ 0 := by exact_mod_cast (by omega : N ≠ 0)
  have h := graded_ext (P := fun k => Chebyshev.T ℝ k) T_natDegree T_ne_zero
    (quadL (nodes N) (intWeights N) - integralL (-1) 1) N ?_ p hp
  · have := sub_eq_zero.mp h
    exact this
  · intro k hk
    rw [LinearMap.sub_apply, sub_eq_zero]
    show ∑ i : Fin (N + 1), _ = ∫ x in (-1 : ℝ)..1, _
    rw [integral_T]
    have h1 : ∑ i, (Chebyshev.T ℝ k).eval (nodes N i) * intWeights N i =
        2 / N * trap N (fun j => ccV N (j * (π / N)) * cos (k * (j * (π / N)))) := by
      rw [trap, Finset.mul_sum]
      refine Finset.sum_congr rfl fun i _ => ?_
      rw [T_node, intWeights_eq hN]; ring
    rw [h1, trap_cc hN hk]
    split_ifs
    · field_simp
    · simp

/-- C33. `integrate` is exact on any interval for polynomial integrands of degree at most `N`. -/
theorem integrate_exact {N : ℕ} (hN : 1 ≤ N) {p : ℝ[X]} (hp : p.natDegree ≤ N) (t0 tf : ℝ) :
    integrate N (fun t => p.eval t) t0 tf = ∫ t in t0..tf, p.eval t := by
  have hq : (p.comp (C ((tf - t0) / 2) * X + C ((tf + t0) / 2))).natDegree ≤ N := by
    refine natDegree_comp_le.trans ?_
    refine le_trans (Nat.mul_le_mul hp (natDegree_linear_le)) (by omega)
  have h := intWeights_exact hN hq
  simp only [eval_comp, eval_add, eval_mul, eval_C, eval_X] at h
  rw [integrate, h, ← smul_eq_mul, intervalIntegral.smul_integral_comp_mul_add (fun t => p.eval t)]
  congr 1 <;> ring

/-- C33. The weights are symmetric. -/
theorem intWeights_rev {N : ℕ} (hN : 1 ≤ N) (i : Fin (N + 1)) : intWeights N i.rev = intWeights N i := by
  have hN0 : (N : ℝ) ≠ 0 := by exact_mod_cast (by omega : N ≠ 0)
  have hi : i.val ≤ N := Nat.lt_succ_iff.mp i.isLt
  have ev : i.rev.val = N - i.val := by rw [Fin.val_rev]; omega
  have ha : (i.rev.val : ℝ) * (π / N) = π - i.val * (π / N) := by
    rw [ev, Nat.cast_sub hi]; field_simp
  have hcos : ∀ m : ℕ, m % 2 = 0 → cos ((m : ℝ) * (i.rev.val * (π / N))) = cos (m * (i.val * (π / N))) := by
    intro m hm
    obtain ⟨l, rfl⟩ : ∃ l, m = 2 * l := ⟨m / 2, by omega⟩
    rw [ha, show ((2 * l : ℕ) : ℝ) * (π - i.val * (π / N)) = (l : ℝ) * (2 * π) - ((2 * l : ℕ) : ℝ) * (i.val * (π / N)) by
      push_cast; ring, cos_nat_mul_two_pi_sub]
  rw [intWeights_eq hN, intWeights_eq hN]
  have hV : ccV N (i.rev.val * (π / N)) = ccV N (i.val * (π / N)) := by
    unfold ccV
    congr 1
    · congr 1
      refine Finset.sum_congr rfl fun k _ => ?_
      have := hcos (2 * (k + 1)) (by omega)
      push_cast at this ⊢
      rw [this]
    · split_ifs with h
      · rw [hcos N h]
      · rfl
  rw [hV]
  have : (i.rev.val = 0 ∨ i.rev.val = N) ↔ (i.val = 0 ∨ i.val = N) := by omega
  simp only [this]

/-- C33. All weights are positive, so the quadrature of a nonnegative (positive) function is nonnegative (positive). -/
theorem intWeights_pos {N : ℕ} (hN : 1 ≤ N) (i : Fin (N + 1)) : 0 < intWeights N i := by
  have hNp : (0 : ℝ) < N := by exact_mod_cast hN
  have hV : 0 < ccV N (i.val * (π / N)) := by
    have h0 : 0 < ccV N 0 := by
      rw [ccV_ends hN (by simp)]
      split_ifs with h
      · have : (2 : ℝ) ≤ N := by exact_mod_cast (by omega : 2 ≤ N)
        exact div_pos hNp (by nlinarith)
      · positivity
    refine lt_of_lt_of_le h0 ?_
    unfold ccV
    have hs : ∑ k ∈ Finset.range ((N - 1) / 2), 2 / (4 * ((k + 1 : ℕ) : ℝ) ^ 2 - 1) * cos (2 * ((k + 1 : ℕ) : ℝ) * (i.val * (π / N))) ≤
        ∑ k ∈ Finset.range ((N - 1) / 2), 2 / (4 * ((k + 1 : ℕ) : ℝ) ^ 2 - 1) * cos (2 * ((k + 1 : ℕ) : ℝ) * 0) := by
      refine Finset.sum_le_sum fun k _ => ?_
      refine mul_le_mul_of_nonneg_left ?_ ?_
      · rw [mul_zero, cos_zero]; exact cos_le_one _
      · refine div_nonneg (by norm_num) ?_
        have : (1 : ℝ) ≤ ((k + 1 : ℕ) : ℝ) := by exact_mod_cast Nat.succ_le_succ (Nat.zero_le k)
        nlinarith
    have hc : (if N % 2 = 0 then cos (N * (i.val * (π / N))) / ((N : ℝ) ^ 2 - 1) else 0) ≤
        (if N % 2 = 0 then cos ((N : ℝ) * 0) / ((N : ℝ) ^ 2 - 1) else 0) := by
      split_ifs with h
      · have : (2 : ℝ) ≤ N := by exact_mod_cast (by omega : 2 ≤ N)
        refine div_le_div_of_nonneg_right ?_ (by nlinarith)
        rw [mul_zero, cos_zero]; exact cos_le_one _
      · exact le_rfl
    linarith
  rw [intWeights_eq hN]
  refine mul_pos (by positivity) (mul_pos ?_ hV)
  split_ifs <;> norm_num

/-- C33. The weights sum to the length of the interval. -/
theorem intWeights_sum {N : ℕ} (hN : 1 ≤ N) : ∑ i, intWeights N i = 2 := by
  have := intWeights_exact hN (p := 1) (by simp)
  simp at this
  rw [this]; norm_num

/-! ### C73: projection -/

theorem evalT_eq {x : ℝ} (hx : x ∈ Set.Icc (-1 : ℝ) 1) (n : ℕ) : evalT x n = (Chebyshev.T ℝ n).eval x := by
  conv_rhs => rw [← cos_arccos hx.1 hx.2]
  rw [evalT, Chebyshev.T_real_cos]; simp

theorem nodes_mem {N : ℕ} (i : Fin (N + 1)) : nodes N i ∈ Set.Icc (-1 : ℝ) 1 := ⟨neg_one_le_cos _, cos_le_one _⟩

/-- The discrete inner product with normalisation, as a linear functional. -/
noncomputable def coeffL (N : ℕ) (n : Fin (N + 1)) : ℝ[X] →ₗ[ℝ] ℝ :=
  normFactors N n • quadL (nodes N) (fun i => evalT (nodes N i) n.val * quadWeights N i)

theorem coeffL_T {N : ℕ} (hN : 1 ≤ N) (n : Fin (N + 1)) (k : ℕ) (hk : k ≤ N) :
    coeffL N n (Chebyshev.T ℝ k) = if k = n.val then (if k = N then 2 else 1) else 0 := by
  have hN0 : (N : ℝ) ≠ 0 := by exact_mod_cast (by omega : N ≠ 0)
  have hn : n.val ≤ N := Nat.lt_succ_iff.mp n.isLt
  have h1 : coeffL N n (Chebyshev.T ℝ k) = normFactors N n * (π / N *
      trap N (fun j => cos (((k : ℤ) : ℝ) * (j * (π / N))) * cos (((n.val : ℤ) : ℝ) * (j * (π / N))))) := by
    show normFactors N n * ∑ i : Fin (N + 1), _ = _
    rw [trap, Finset.mul_sum (a := π / N)]
    congr 1
    refine Finset.sum_congr rfl fun i _ => ?_
    beta_reduce
    rw [evalT_eq (nodes_mem i), T_node, T_node, quadWeights]
    push_cast; ring
  rw [h1, trap_mul]
  have hpi := pi_ne_zero
  by_cases hkn : k = n.val
  · rw [if_pos hkn, ← hkn, sub_self, trap_cos_eq hN (dvd_zero _), normFactors, ← hkn]
    by_cases hkN : k = N
    · rw [trap_cos_eq hN (by rw [hkN]; exact ⟨1, by ring⟩), if_neg (by omega), if_pos hkN]
      field_simp; norm_num
    · rw [if_neg hkN]
      by_cases hk0 : k = 0
      · rw [trap_cos_eq hN (by rw [hk0]; exact dvd_zero _), if_pos hk0]
        field_simp; norm_num
      · rw [trap_cos_eq_zero hN, if_neg hk0]
        · field_simp; norm_num
        · intro hd
          have := Int.le_of_dvd (by omega) hd
          omega
  · rw [if_neg hkn, trap_cos_eq_zero hN, trap_cos_eq_zero hN]
    · simp
    · intro hd
      rw [← dvd_abs] at hd
      have := Int.le_of_dvd (abs_pos.mpr (by omega)) hd
      rcases abs_cases ((k : ℤ) - n.val) with h | h <;> omega
    · intro hd
      have := Int.le_of_dvd (by omega) hd
      omega

theorem project_eq_coeffL {N : ℕ} (p : ℝ[X]) (a b : ℝ) (n : Fin (N + 1)) :
    project (chebBasis N) (fun t => p.eval t) a b n =
      coeffL N n (p.comp (C ((b - a) / 2) * X + C ((b + a) / 2))) := by
  show normFactors N n * ∑ i : Fin (N + 1), _ = normFactors N n * ∑ i : Fin (N + 1), _
  congr 1
  refine Finset.sum_congr rfl fun i _ => ?_
  simp only [eval_comp, eval_add, eval_mul, eval_C, eval_X, chebBasis]
  ring

/-- Value of the expansion as a linear functional of the polynomial in the reference coordinate. -/
noncomputable def expandL (N : ℕ) (x : ℝ) : ℝ[X] →ₗ[ℝ] ℝ where
  toFun p := ∑ i : Fin (N + 1), coeffL N i p * evalT x i.val
  map_add' p q := by rw [← Finset.sum_add_distrib]; exact Finset.sum_congr rfl fun i _ => by rw [map_add]; ring
  map_smul' c p := by
    rw [RingHom.id_apply, smul_eq_mul, Finset.mul_sum]
    exact Finset.sum_congr rfl fun i _ => by rw [LinearMap.map_smul, smul_eq_mul]; ring

theorem expandL_T {N : ℕ} (hN : 1 ≤ N) {x : ℝ} (hx : x ∈ Set.Icc (-1 : ℝ) 1) (k : ℕ) (hk : k ≤ N) :
    expandL N x (Chebyshev.T ℝ k) = (if k = N then 2 else 1) * (Chebyshev.T ℝ k).eval x := by
  show ∑ i : Fin (N + 1), _ = _
  rw [Finset.sum_eq_single (⟨k, by omega⟩ : Fin (N + 1))]
  · rw [coeffL_T hN _ k hk, if_pos rfl, evalT_eq hx]
  · intro i _ hi
    rw [coeffL_T hN _ k hk, if_neg (fun h => hi (Fin.ext h.symm)), zero_mul]
  · intro h; exact absurd (Finset.mem_univ _) h

/-- C73. A Chebyshev projection of order `N` on `[a,b]` reproduces every polynomial of degree below `N`. -/
theorem projection_reproduces {N : ℕ} (hN : 1 ≤ N) {p : ℝ[X]} (hp : p.natDegree < N) {a b : ℝ} (hab : a < b)
    {t : ℝ} (ht : t ∈ Set.Icc a b) :
    projEval (chebBasis N) (project (chebBasis N) (fun s => p.eval s) a b) a b t = p.eval t := by
  have hs : (b - a) / 2 ≠ 0 := by have : 0 < b - a := by linarith
                                  positivity
  have hpos : 0 < (b - a) / 2 := by linarith
  set x := (t - (b + a) / 2) / ((b - a) / 2) with hx
  have hxm : x ∈ Set.Icc (-1 : ℝ) 1 := by
    rw [hx, Set.mem_Icc, le_div_iff₀ hpos, div_le_iff₀ hpos]
    constructor <;> linarith [ht.1, ht.2]
  have hq : (p.comp (C ((b - a) / 2) * X + C ((b + a) / 2))).natDegree ≤ N - 1 := by
    refine natDegree_comp_le.trans ?_
    refine le_trans (Nat.mul_le_mul (Nat.le_sub_one_of_lt hp) (natDegree_linear_le)) (by omega)
  have h := graded_ext (P := fun k => Chebyshev.T ℝ k) T_natDegree T_ne_zero (expandL N x - evalL x) (N - 1) ?_ _ hq
  · have h2 := sub_eq_zero.mp h
    have h3 : projEval (chebBasis N) (project (chebBasis N) (fun s => p.eval s) a b) a b t =
        expandL N x (p.comp (C ((b - a) / 2) * X + C ((b + a) / 2))) := by
      show ∑ i : Fin (N + 1), _ = ∑ i : Fin (N + 1), _
      refine Finset.sum_congr rfl fun i _ => ?_
      rw [project_eq_coeffL]; rfl
    rw [h3, h2]
    show eval x (p.comp _) = _
    simp only [eval_comp, eval_add, eval_mul, eval_C, eval_X]
    congr 1
    rw [hx, mul_div_cancel₀ _ hs]; ring
  · intro k hk
    rw [LinearMap.sub_apply, expandL_T hN hxm k (by omega), if_neg (by omega), one_mul]
    exact sub_self _

/-- C73. The top coefficient is doubled: the projection of `T_N` itself evaluates to `2 T_N`. The code normalises
with the continuous weight factor where the discrete norm of `T_N` on Gauss-Lobatto nodes is twice as large. -/
theorem projection_top_doubled {N : ℕ} (hN : 1 ≤ N) {t : ℝ} (ht : t ∈ Set.Icc (-1 : ℝ) 1) :
    projEval (chebBasis N) (project (chebBasis N) (fun s => (Chebyshev.T ℝ N).eval s) (-1) 1) (-1) 1 t =
      2 * (Chebyshev.T ℝ N).eval t := by
  have h3 : projEval (chebBasis N) (project (chebBasis N) (fun s => (Chebyshev.T ℝ N).eval s) (-1) 1) (-1) 1 t =
      expandL N t (Chebyshev.T ℝ N) := by
    show ∑ i : Fin (N + 1), _ = ∑ i : Fin (N + 1), _
    refine Finset.sum_congr rfl fun i _ => ?_
    rw [project_eq_coeffL]
    have e1 : (C (((1 : ℝ) - -1) / 2) * X + C ((1 + -1) / 2) : ℝ[X]) = X := by
      rw [show ((1 : ℝ) - -1) / 2 = 1 by norm_num, show ((1 : ℝ) + -1) / 2 = 0 by norm_num, C_1, C_0, one_mul, add_zero]
    have e2 : (t - (1 + -1) / 2) / ((1 - -1) / 2) = t := by norm_num
    rw [e1, comp_X, e2]; rfl
  rw [h3, expandL_T hN ht N le_rfl, if_pos rfl]

/-! Non-vacuity: at order two the quadrature of the square is `2/3` and its derivative at the first node is `2`; at order one
the projection of the identity evaluates at `1/2` to `1`. -/
example : ∑ i, (X ^ 2 : ℝ[X]).eval (nodes 2 i) * intWeights 2 i = 2 / 3 := by
  rw [intWeights_exact (by norm_num) (by simp)]
  simp; norm_num

example : ∑ j, diffMatrix 2 0 j * (X ^ 2 : ℝ[X]).eval (nodes 2 j) = 2 := by
  rw [diffMatrix_exact (by norm_num) (by simp)]
  simp [nodes]; norm_num

example : projEval (chebBasis 1) (project (chebBasis 1) (fun s => s) (-1) 1) (-1) 1 (1 / 2) = 1 := by
  have := projection_top_doubled (N := 1) le_rfl (t := 1 / 2) (by constructor <;> norm_num)
  simpa using this

end PolyMPC.Cheb
