import Verif.Lemmas.Legendre
import Verif.Lemmas.Chebyshev
import Verif.Lemmas.LagrangeDiff
import Mathlib.Analysis.Calculus.Deriv.Polynomial
import Mathlib.Analysis.Calculus.LocalExtr.Rolle
import Mathlib.Algebra.Polynomial.HasseDeriv

/-! Orthogonality and zeros of the Legendre polynomials over the reals, and the Gauss-Lobatto weights. -/

namespace PolyMPC.Lgl
open Polynomial PolyMPC.Spec PolyMPC.Cheb

local notation "P" => legendre ℝ
local notation "I" => integralL (-1) 1

theorem I_apply (p : ℝ[X]) : I p = ∫ x in (-1 : ℝ)..1, p.eval x := rfl

theorem I_derivative (p : ℝ[X]) : I (derivative p) = p.eval 1 - p.eval (-1) := integral_derivative p _ _

theorem I_C_mul (c : ℝ) (p : ℝ[X]) : I (C c * p) = c * I p := by
  rw [← smul_eq_C_mul, LinearMap.map_smul, smul_eq_mul]

/-- Integration by parts. -/
theorem I_parts (p q : ℝ[X]) : I (derivative p * q) = p.eval 1 * q.eval 1 - p.eval (-1) * q.eval (-1) - I (p * derivative q) := by
  have := I_derivative (p * q)
  rw [derivative_mul, map_add, eval_mul, eval_mul] at this
  linarith

theorem I_ode (n : ℕ) (q : ℝ[X]) : (n * (n + 1) : ℝ) * I (P n * q) = I ((1 - X ^ 2) * derivative (P n) * derivative q) := by
  have h := I_parts ((1 - X ^ 2) * derivative (P n)) q
  rw [legendre_ode, neg_mul, map_neg, mul_assoc, I_C_mul] at h
  simp at h
  simp only [mul_assoc] at h ⊢
  linarith

theorem I_orth {m n : ℕ} (h : m ≠ n) : I (P m * P n) = 0 := by
  have h1 := I_ode m (P n)
  have h2 := I_ode n (P m)
  have e : (1 - X ^ 2) * derivative (P n) * derivative (P m) = (1 - X ^ 2) * derivative (P m) * derivative (P n) := by ring
  rw [e, mul_comm (P n)] at h2
  have h3 : ((m : ℝ) * (m + 1) - n * (n + 1)) * I (P m * P n) = 0 := by linarith
  rcases mul_eq_zero.mp h3 with h4 | h4
  · exfalso
    have : ((m : ℝ) - n) * (m + n + 1) = 0 := by linarith
    rcases mul_eq_zero.mp this with h5 | h5
    · exact h (by exact_mod_cast sub_eq_zero.mp h5)
    · have : (0 : ℝ) < m + n + 1 := by positivity
      linarith
  · exact h4

theorem P_ne_zero (n : ℕ) : P n ≠ 0 := by
  intro h
  have := legendre_eval_one (K := ℝ) n
  rw [h] at this; simp at this

/-- The product with a fixed polynomial followed by integration. -/
noncomputable def mulI (q : ℝ[X]) : ℝ[X] →ₗ[ℝ] ℝ := (I).comp (LinearMap.mulLeft ℝ q)

theorem mulI_apply (q p : ℝ[X]) : mulI q p = I (q * p) := rfl

/-- `P n` is orthogonal to everything of lower degree. -/
theorem I_orth_lower {n : ℕ} {q : ℝ[X]} (hq : q.natDegree < n) : I (P n * q) = 0 := by
  exact graded_ext (legendre_natDegree (K := ℝ)) P_ne_zero (mulI (P n)) (n - 1)
    (fun k hk => I_orth (by omega)) q (by omega)

theorem I_norm (n : ℕ) : I (P n * P n) = 2 / (2 * n + 1) := by
  cases n with
  | zero => rw [legendre_zero, I_apply]; simp; norm_num
  | succ n =>
    have h := I_parts (P (n + 2)) (P (n + 1))
    have z1 : I (P (n + 2) * derivative (P (n + 1))) = 0 := I_orth_lower (by
      refine lt_of_le_of_lt (natDegree_derivative_le _) ?_
      rw [legendre_natDegree]; omega)
    have z2 : I (P (n + 1) * derivative (P n)) = 0 := I_orth_lower (by
      refine lt_of_le_of_lt (natDegree_derivative_le _) ?_
      rw [legendre_natDegree]; omega)
    rw [z1, der_rel2, add_mul, map_add, mul_assoc, I_C_mul, mul_comm (derivative (P n)), z2, legendre_eval_one,
      legendre_eval_one, legendre_eval_neg_one, legendre_eval_neg_one, ← pow_add] at h
    have : ((-1 : ℝ)) ^ (n + 2 + (n + 1)) = -1 := Odd.neg_one_pow ⟨n + 1, by ring⟩
    rw [this] at h
    push_cast
    have hp : (2 * ((n : ℝ) + 1) + 1) ≠ 0 := by positivity
    rw [eq_div_iff hp]
    linarith

/-- Only the coefficient of degree `n` counts when integrating against `P n`. -/
theorem I_lead {n : ℕ} {q : ℝ[X]} (hq : q.natDegree ≤ n) : I (P n * q) = q.coeff n / lead ℝ n * (2 / (2 * n + 1)) := by
  obtain ⟨h1, h2⟩ := legendre_degree (K := ℝ) n
  have hl := lead_ne_zero (K := ℝ) n
  have hz : I (P n * (q - C (q.coeff n / lead ℝ n) * P n)) = 0 := by
    rcases Nat.eq_zero_or_pos n with h0 | hpos
    · subst h0
      have : q - C (q.coeff 0 / lead ℝ 0) * P 0 = 0 := by
        rw [eq_C_of_natDegree_le_zero hq, legendre_zero]; simp [lead]
      rw [this]; simp
    · refine I_orth_lower ?_
      have hle : (q - C (q.coeff n / lead ℝ n) * P n).natDegree ≤ n :=
        (natDegree_sub_le _ _).trans (max_le hq ((natDegree_C_mul_le _ _).trans h1))
      refine lt_of_le_of_ne hle fun he => ?_
      have hc : (q - C (q.coeff n / lead ℝ n) * P n).coeff n = 0 := by
        rw [coeff_sub, coeff_C_mul, h2, div_mul_cancel₀ _ hl, sub_self]
      have : (q - C (q.coeff n / lead ℝ n) * P n) = 0 := by
        rw [← leadingCoeff_eq_zero, leadingCoeff, he, hc]
      rw [this, natDegree_zero] at he
      omega
  rw [mul_sub, map_sub, sub_eq_zero] at hz
  rw [hz, show P n * (C (q.coeff n / lead ℝ n) * P n) = C (q.coeff n / lead ℝ n) * (P n * P n) by ring, I_C_mul, I_norm]

/-- Antiderivative of a polynomial. -/
theorem exists_antiderivative (s : ℝ[X]) : ∃ S : ℝ[X], derivative S = s ∧ S.natDegree ≤ s.natDegree + 1 := by
  refine ⟨∑ k ∈ Finset.range (s.natDegree + 1), C (s.coeff k / (k + 1)) * X ^ (k + 1), ?_, ?_⟩
  · rw [derivative_sum]
    conv_rhs => rw [as_sum_range_C_mul_X_pow s]
    refine Finset.sum_congr rfl fun k _ => ?_
    rw [derivative_C_mul_X_pow]
    have : (k : ℝ) + 1 ≠ 0 := by positivity
    push_cast
    rw [div_mul_cancel₀ _ this]
  · refine natDegree_sum_le_of_forall_le _ _ fun k hk => ?_
    have := Finset.mem_range.mp hk
    exact (natDegree_C_mul_X_pow_le _ _).trans (by omega)

/-- `(1-x²) P_n'` is orthogonal to everything of degree at most `n-2`; in general the coefficient of degree `n-1` counts. -/
theorem I_bubble {n : ℕ} (hn : 1 ≤ n) {s : ℝ[X]} (hs : s.natDegree ≤ n - 1) :
    I ((1 - X ^ 2) * derivative (P n) * s) = (n + 1) * (s.coeff (n - 1) / lead ℝ n) * (2 / (2 * n + 1)) := by
  obtain ⟨S, hS, hd⟩ := exists_antiderivative s
  rw [← hS, ← I_ode, I_lead (by omega)]
  have : (derivative S).coeff (n - 1) = n * S.coeff n := by
    rw [coeff_derivative, Nat.sub_add_cancel hn]
    have : ((n - 1 : ℕ) : ℝ) = n - 1 := by push_cast [Nat.cast_sub hn]; ring
    rw [this]; ring
  rw [this]; ring

/-! ### Gauss-Lobatto nodes -/

/-- The polynomial with roots at the nodes. -/
noncomputable def om (N : ℕ) : ℝ[X] := (1 - X ^ 2) * derivative (P N)

theorem om_derivative (N : ℕ) : derivative (om N) = -(C (N * (N + 1) : ℝ) * P N) := legendre_ode N

variable {N : ℕ} {x : Fin (N + 1) → ℝ}

theorem om_eval (h : IsLGL N x) (i : Fin (N + 1)) : (om N).eval (x i) = 0 := by
  rw [om, eval_mul]
  by_cases h0 : i.val = 0
  · rw [show i = 0 from Fin.ext h0, h.first]; simp
  · by_cases h1 : i.val = N
    · rw [show i = Fin.last N from Fin.ext h1, h.last]; simp
    · rw [h.interior i (by omega) (by have := i.isLt; omega), mul_zero]

theorem om_natDegree (hN : 1 ≤ N) : (om N).natDegree ≤ N + 1 := by
  refine natDegree_mul_le.trans ?_
  have h1 : ((1 : ℝ[X]) - X ^ 2).natDegree ≤ 2 := (natDegree_sub_le _ _).trans (by simp)
  have h2 := natDegree_derivative_le (P N)
  rw [legendre_natDegree] at h2
  omega

theorem om_ne_zero (hN : 1 ≤ N) : om N ≠ 0 := by
  intro h
  have := om_derivative N
  rw [h, derivative_zero, zero_eq_neg, mul_eq_zero] at this
  rcases this with h | h
  · rw [C_eq_zero] at h
    have : (0 : ℝ) < N := by exact_mod_cast hN
    have : (0 : ℝ) < N * (N + 1) := by positivity
    linarith
  · exact P_ne_zero N h

theorem om_eq (hN : 1 ≤ N) (h : IsLGL N x) : ∃ a : ℝ, a ≠ 0 ∧ om N = C a * _root_.Lagrange.nodal Finset.univ x := by
  have := PolyMPC.Lagrange.eq_smul_nodal h.mono.injective (q := om N) (by rw [Fintype.card_fin]; exact om_natDegree hN) (om_eval h)
  refine ⟨_, ?_, this⟩
  intro h0
  rw [h0, C_0, zero_mul] at this
  exact om_ne_zero hN this

/-- The Legendre polynomial does not vanish at the nodes: the divisions in the code are defined. -/
theorem P_node_ne_zero (hN : 1 ≤ N) (h : IsLGL N x) (i : Fin (N + 1)) : (P N).eval (x i) ≠ 0 := by
  obtain ⟨a, ha, he⟩ := om_eq hN h
  intro h0
  have hd := congrArg (fun p => (derivative p).eval (x i)) he
  simp only [om_derivative, eval_neg, eval_mul, eval_C, h0, mul_zero, neg_zero, derivative_mul, derivative_C, zero_mul,
    zero_add] at hd
  have := _root_.Lagrange.eval_nodal_derivative_eval_node_eq (v := x) (Finset.mem_univ i)
  rw [this] at hd
  rcases mul_eq_zero.mp hd.symm with h1 | h1
  · exact ha h1
  · rw [_root_.Lagrange.eval_nodal, Finset.prod_eq_zero_iff] at h1
    obtain ⟨j, hj, hz⟩ := h1
    exact (Finset.mem_erase.mp hj).1 (h.mono.injective (sub_eq_zero.mp hz)).symm

theorem om_derivative_eval (N : ℕ) (t : ℝ) : (derivative (om N)).eval t = -(N * (N + 1) * (P N).eval t) := by
  rw [om_derivative]; simp

theorem NN_ne_zero (hN : 1 ≤ N) : (N * (N + 1) : ℝ) ≠ 0 := by
  have : (0 : ℝ) < N := by exact_mod_cast hN
  positivity

theorem basis_off (hN : 1 ≤ N) (h : IsLGL N x) {i j : Fin (N + 1)} (hij : i ≠ j) :
    (derivative (_root_.Lagrange.basis Finset.univ x j)).eval (x i) = (P N).eval (x i) / (P N).eval (x j) * (1 / (x i - x j)) := by
  have hj := P_node_ne_zero hN h j
  have hn := NN_ne_zero hN
  rw [PolyMPC.Lagrange.derivative_basis_of_vanishing (q := om N) h.mono.injective
    (by rw [Fintype.card_fin]; exact om_natDegree hN) (om_eval h) hij
    (by rw [om_derivative_eval]; exact neg_ne_zero.mpr (mul_ne_zero hn hj)), om_derivative_eval, om_derivative_eval,
    neg_div_neg_eq, mul_div_mul_left _ _ hn, div_eq_mul_one_div]

/-- Factor form of the Lagrange basis. -/
theorem basis_factor (hN : 1 ≤ N) (h : IsLGL N x) (i : Fin (N + 1)) :
    om N = (X - C (x i)) * (C (-(N * (N + 1) * (P N).eval (x i))) * _root_.Lagrange.basis Finset.univ x i) := by
  obtain ⟨a, ha, he⟩ := om_eq hN h
  have hd := congrArg (fun p => (derivative p).eval (x i)) he
  simp only [om_derivative_eval, derivative_C_mul, eval_mul, eval_C] at hd
  have hne : (derivative (_root_.Lagrange.nodal Finset.univ x)).eval (x i) ≠ 0 := by
    intro h0
    rw [h0, mul_zero, neg_eq_zero] at hd
    exact mul_ne_zero (NN_ne_zero hN) (P_node_ne_zero hN h i) hd
  rw [_root_.Lagrange.basis_eq_prod_sub_inv_mul_nodal_div (Finset.mem_univ i), ← _root_.Lagrange.nodal_erase_eq_nodal_div (Finset.mem_univ i),
    _root_.Lagrange.nodalWeight_eq_eval_derivative_nodal (Finset.mem_univ i), he, hd,
    _root_.Lagrange.nodal_eq_mul_nodal_erase (v := x) (Finset.mem_univ i)]
  rw [_root_.Lagrange.nodal_eq_mul_nodal_erase (v := x) (Finset.mem_univ i)] at hne
  rw [← mul_assoc (C (a * _)), ← C_mul, mul_assoc a, mul_inv_cancel₀ hne, mul_one]
  ring

/-- Diagonal entries of the exact differentiation matrix. -/
theorem basis_diag (hN : 1 ≤ N) (h : IsLGL N x) (i : Fin (N + 1)) :
    (derivative (_root_.Lagrange.basis Finset.univ x i)).eval (x i) = (derivative (P N)).eval (x i) / (2 * (P N).eval (x i)) := by
  have hf := basis_factor hN h i
  have hp := P_node_ne_zero hN h i
  have h2 := congrArg (fun p => (derivative (derivative p)).eval (x i)) hf
  simp only [om_derivative] at h2
  simp [derivative_mul] at h2
  have hn := NN_ne_zero hN
  rw [eq_div_iff (mul_ne_zero two_ne_zero hp)]
  have h3 : (N * (N + 1) : ℝ) * ((derivative (P N)).eval (x i) -
      (derivative (_root_.Lagrange.basis Finset.univ x i)).eval (x i) * (2 * (P N).eval (x i))) = 0 := by linarith
  rcases mul_eq_zero.mp h3 with h4 | h4
  · exact absurd h4 hn
  · linarith

theorem derivative_P_one (n : ℕ) : (derivative (P n)).eval 1 = n * (n + 1) / 2 := by
  have h := congrArg (eval (1 : ℝ)) (legendre_ode (K := ℝ) n)
  rw [derivative_mul] at h
  simp [legendre_eval_one] at h
  linarith

theorem derivative_P_neg_one (n : ℕ) : (derivative (P n)).eval (-1) = -(n * (n + 1) / 2 * (-1) ^ n) := by
  have h := congrArg (eval (-1 : ℝ)) (legendre_ode (K := ℝ) n)
  rw [derivative_mul] at h
  simp [legendre_eval_neg_one] at h
  linarith

/-! ### Weights -/

/-- Integral of the Lagrange basis polynomials. -/
theorem I_basis (hN : 1 ≤ N) (h : IsLGL N x) (i : Fin (N + 1)) :
    I (_root_.Lagrange.basis Finset.univ x i) = 2 / (N * (N + 1)) / (P N).eval (x i) ^ 2 := by
  have hp := P_node_ne_zero hN h i
  have hn := NN_ne_zero hN
  have hNr : (0 : ℝ) < N := by exact_mod_cast hN
  have hl := lead_ne_zero (K := ℝ) N
  obtain ⟨hd1, hd2⟩ := legendre_degree (K := ℝ) N
  set ξ := x i with hξ
  set b := _root_.Lagrange.basis Finset.univ x i with hb
  set pv := (P N).eval ξ with hpv
  have hf : om N = (X - C ξ) * (C (-(N * (N + 1) * pv)) * b) := basis_factor hN h i
  -- divided difference of P
  obtain ⟨g, hg⟩ : X - C ξ ∣ P N - C pv := by rw [dvd_iff_isRoot, IsRoot.def]; simp [hpv]
  have hgdeg : g.natDegree ≤ N - 1 := by
    by_cases hg0 : g = 0
    · rw [hg0]; simp
    · have : (P N - C pv).natDegree ≤ N := (natDegree_sub_le _ _).trans (by simp [legendre_natDegree])
      rw [hg, natDegree_mul (X_sub_C_ne_zero ξ) hg0, natDegree_X_sub_C] at this
      omega
  have hgc : g.coeff (N - 1) = lead ℝ N := by
    have := congrArg (fun p => p.coeff N) hg
    simp only [coeff_sub, hd2, coeff_C, if_neg (show N ≠ 0 by omega), sub_zero] at this
    obtain ⟨m, rfl⟩ : ∃ m, N = m + 1 := ⟨N - 1, by omega⟩
    rw [sub_mul, coeff_sub, coeff_X_mul, coeff_C_mul, coeff_eq_zero_of_natDegree_lt (p := g) (n := m + 1) (by omega), mul_zero,
      sub_zero] at this
    exact this.symm
  -- degree and coefficient of the basis polynomial
  have hbdeg : b.natDegree ≤ N := by
    refine natDegree_le_of_degree_le ?_
    rw [hb, _root_.Lagrange.degree_basis h.mono.injective.injOn (Finset.mem_univ i)]
    simp
  have homc : (om N).coeff (N + 1) = -(N * lead ℝ N) := by
    obtain ⟨m, rfl⟩ : ∃ m, N = m + 1 := ⟨N - 1, by omega⟩
    have hdd : (derivative (P (m + 1))).natDegree ≤ m := by
      have := natDegree_derivative_le (P (m + 1))
      rw [legendre_natDegree] at this; omega
    rw [om, sub_mul, one_mul, coeff_sub, coeff_eq_zero_of_natDegree_lt (by omega), coeff_X_pow_mul', if_pos (by omega),
      show m + 1 + 1 - 2 = m by omega, coeff_derivative, hd2]
    push_cast; ring
  have hbc : -(N * (N + 1) * pv) * b.coeff N = -(N * lead ℝ N) := by
    rw [← homc, hf, sub_mul, coeff_sub, coeff_X_mul, coeff_C_mul, coeff_C_mul, coeff_C_mul,
      coeff_eq_zero_of_natDegree_lt (p := b) (n := N + 1) (by omega)]
    ring
  -- two expressions
  have e1 : I (om N * g) = (N + 1) * (2 / (2 * N + 1)) := by
    have := I_bubble hN hgdeg
    rw [hgc, div_self hl, mul_one] at this
    exact this
  have e2 : om N * g = C (-(N * (N + 1) * pv)) * (b * P N) - C (-(N * (N + 1) * pv) * pv) * b := by
    rw [hf, C_mul]
    linear_combination -(C (-(N * (N + 1) * pv)) * b) * hg
  have e3 : I (b * P N) = b.coeff N / lead ℝ N * (2 / (2 * N + 1)) := by rw [mul_comm, I_lead hbdeg]
  rw [e2, map_sub, I_C_mul, I_C_mul, e3] at e1
  have e4 : -(N * (N + 1) * pv) * (b.coeff N / lead ℝ N * (2 / (2 * N + 1))) = -N * (2 / (2 * N + 1)) := by
    rw [← mul_assoc, ← mul_div_assoc (-(_ : ℝ)), hbc, neg_div, mul_div_assoc (N : ℝ), div_self hl, mul_one]
  rw [e4] at e1
  have h21 : (2 * (N : ℝ) + 1) ≠ 0 := by positivity
  have e5 : (N * (N + 1) : ℝ) * pv ^ 2 * I b = 2 := by
    have : (N * (N + 1) : ℝ) * pv ^ 2 * I b = (N + 1) * (2 / (2 * N + 1)) + N * (2 / (2 * N + 1)) := by linarith
    rw [this]; field_simp; ring
  rw [div_div, eq_div_iff (mul_ne_zero hn (pow_ne_zero 2 hp))]
  linarith

/-- Gauss-Lobatto quadrature is exact up to degree `2N-1`. -/
theorem lgl_exact (hN : 1 ≤ N) (h : IsLGL N x) {p : ℝ[X]} (hp : p.natDegree ≤ 2 * N - 1) :
    ∑ i, p.eval (x i) * (2 / (N * (N + 1)) / (P N).eval (x i) ^ 2) = I p := by
  -- reduce modulo the nodal polynomial
  have low : ∀ r : ℝ[X], r.degree < ((N + 1 : ℕ) : WithBot ℕ) →
      ∑ i, r.eval (x i) * (2 / (N * (N + 1)) / (P N).eval (x i) ^ 2) = I r := by
    intro r hr
    have hr' := _root_.Lagrange.eq_interpolate (f := r) (v := x) (s := Finset.univ) h.mono.injective.injOn
      (by rw [Finset.card_univ, Fintype.card_fin]; exact hr)
    conv_rhs => rw [hr', _root_.Lagrange.interpolate_apply, map_sum]
    refine Finset.sum_congr rfl fun i _ => ?_
    rw [I_C_mul, I_basis hN h]
  set w := _root_.Lagrange.nodal Finset.univ x with hw
  have hmonic : w.Monic := _root_.Lagrange.nodal_monic
  have hwdeg : w.natDegree = N + 1 := by rw [hw, _root_.Lagrange.natDegree_nodal, Finset.card_univ, Fintype.card_fin]
  have hsplit := modByMonic_add_div p w
  have hev : ∀ i, p.eval (x i) = (p %ₘ w).eval (x i) := by
    intro i
    conv_lhs => rw [← hsplit]
    rw [eval_add, eval_mul, hw, _root_.Lagrange.eval_nodal_at_node (Finset.mem_univ i), zero_mul, add_zero]
  have hIq : I (w * (p /ₘ w)) = 0 := by
    obtain ⟨a, ha, he⟩ := om_eq hN h
    have hdeg : (p /ₘ w).natDegree ≤ N - 1 := by
      rw [natDegree_divByMonic p hmonic, hwdeg]; omega
    have hb := I_bubble hN hdeg
    have hlt : (p /ₘ w).natDegree < N - 1 ∨ (N = 1 ∧ p /ₘ w = 0) := by
      rw [natDegree_divByMonic p hmonic, hwdeg]
      rcases Nat.lt_or_ge (p.natDegree - (N + 1)) (N - 1) with h1 | h1
      · exact Or.inl h1
      · right
        refine ⟨by omega, ?_⟩
        rw [divByMonic_eq_zero_iff hmonic]
        refine degree_lt_degree ?_
        rw [hwdeg]; omega
    have hc : (p /ₘ w).coeff (N - 1) = 0 := by
      rcases hlt with h1 | ⟨_, h1⟩
      · exact coeff_eq_zero_of_natDegree_lt h1
      · rw [h1]; simp
    rw [hc, zero_div, mul_zero, zero_mul, show (1 - X ^ 2) * derivative (P N) = om N from rfl, he, mul_assoc, I_C_mul] at hb
    rcases mul_eq_zero.mp hb with h1 | h1
    · exact absurd h1 ha
    · exact h1
  have hlow := low (p %ₘ w) (by
    have := degree_modByMonic_lt p hmonic
    rwa [degree_eq_natDegree hmonic.ne_zero, hwdeg] at this)
  calc ∑ i, p.eval (x i) * (2 / (N * (N + 1)) / (P N).eval (x i) ^ 2)
      = I (p %ₘ w) := by rw [← hlow]; exact Finset.sum_congr rfl fun i _ => by rw [hev i]
    _ = I p := by conv_rhs => rw [← hsplit, map_add, hIq, add_zero]

/-! ### Existence of the nodes -/

/-- Rolle between consecutive points. -/
theorem rolle_gaps {k : ℕ} {s : Fin (k + 1) → ℝ} (hs : StrictMono s) {q : ℝ[X]} (h0 : ∀ i, q.eval (s i) = 0) :
    ∃ r : Fin k → ℝ, StrictMono r ∧ (∀ i, s i.castSucc < r i ∧ r i < s i.succ) ∧ ∀ i, (derivative q).eval (r i) = 0 := by
  have : ∀ i : Fin k, ∃ c, s i.castSucc < c ∧ c < s i.succ ∧ (derivative q).eval c = 0 := by
    intro i
    obtain ⟨c, hc, hd⟩ := exists_deriv_eq_zero (f := fun t => q.eval t) (hs (Fin.castSucc_lt_succ (i := i)))
      q.continuous.continuousOn (by simp only [h0])
    refine ⟨c, hc.1, hc.2, ?_⟩
    rwa [Polynomial.deriv] at hd
  choose r h1 h2 h3 using this
  refine ⟨r, fun i j hij => ?_, fun i => ⟨h1 i, h2 i⟩, h3⟩
  refine (h2 i).trans_le (le_trans ?_ (h1 j).le)
  refine hs.monotone ?_
  rw [Fin.le_def]; simp; exact hij

theorem iter_boundary (N : ℕ) : ∀ k ≤ N, ∃ g : ℝ[X], derivative^[k] ((X ^ 2 - 1 : ℝ[X]) ^ N) = (X ^ 2 - 1) ^ (N - k) * g := by
  intro k
  induction k with
  | zero => intro _; exact ⟨1, by simp⟩
  | succ k ih =>
    intro hk
    obtain ⟨g, hg⟩ := ih (by omega)
    obtain ⟨m, hm⟩ : ∃ m, N - k = m + 1 := ⟨N - k - 1, by omega⟩
    rw [hm] at hg
    refine ⟨C ((m : ℝ) + 1) * derivative (X ^ 2 - 1) * g + (X ^ 2 - 1) * derivative g, ?_⟩
    rw [Function.iterate_succ_apply', hg, derivative_mul, derivative_pow_succ, show N - (k + 1) = m by omega]
    ring

/-- Zeros of the derivatives of `(x²-1)^N` inside the interval. -/
theorem iter_zeros (N : ℕ) : ∀ k ≤ N, ∃ r : Fin k → ℝ, StrictMono r ∧ (∀ i, -1 < r i ∧ r i < 1) ∧
    ∀ i, (derivative^[k] ((X ^ 2 - 1 : ℝ[X]) ^ N)).eval (r i) = 0 := by
  intro k
  induction k with
  | zero => intro _; exact ⟨Fin.elim0, fun i => i.elim0, fun i => i.elim0, fun i => i.elim0⟩
  | succ k ih =>
    intro hk
    obtain ⟨r, hm, hin, hz⟩ := ih (by omega)
    obtain ⟨g, hg⟩ := iter_boundary N k (by omega)
    obtain ⟨m, hmm⟩ : ∃ m, N - k = m + 1 := ⟨N - k - 1, by omega⟩
    let s : Fin (k + 1 + 1) → ℝ := Fin.cons (-1) (Fin.snoc r 1)
    have hs0 : s 0 = -1 := rfl
    have hs : StrictMono s := by
      rw [Fin.strictMono_iff_lt_succ]
      intro i
      refine Fin.cases ?_ (fun j => ?_) i
      · show (-1 : ℝ) < Fin.snoc (α := fun _ => ℝ) r 1 0
        by_cases hk0 : k = 0
        · subst hk0
          show (-1 : ℝ) < Fin.snoc (α := fun _ => ℝ) r 1 (Fin.last 0)
          rw [Fin.snoc_last]; norm_num
        · have : (0 : Fin (k + 1)) = Fin.castSucc (⟨0, by omega⟩ : Fin k) := rfl
          rw [this, Fin.snoc_castSucc]
          exact (hin _).1
      · show Fin.snoc (α := fun _ => ℝ) r 1 j.castSucc < Fin.snoc (α := fun _ => ℝ) r 1 j.succ
        rw [Fin.snoc_castSucc]
        by_cases hj : j.val + 1 = k
        · have : j.succ = Fin.last k := Fin.ext (by simpa using hj)
          rw [this, Fin.snoc_last]; exact (hin _).2
        · have : j.succ = Fin.castSucc (⟨j.val + 1, by omega⟩ : Fin k) := rfl
          rw [this, Fin.snoc_castSucc]
          exact hm (by rw [Fin.lt_def]; simp)
    have hlast : s (Fin.last (k + 1)) = 1 := by
      show Fin.snoc (α := fun _ => ℝ) r 1 (Fin.last k) = 1
      rw [Fin.snoc_last]
    have hz' : ∀ i, (derivative^[k] ((X ^ 2 - 1 : ℝ[X]) ^ N)).eval (s i) = 0 := by
      intro i
      refine Fin.cases ?_ (fun j => ?_) i
      · rw [hs0, hg, hmm]; simp
      · refine Fin.lastCases ?_ (fun l => ?_) j
        · rw [Fin.succ_last, hlast, hg, hmm]; simp
        · show (derivative^[k] ((X ^ 2 - 1 : ℝ[X]) ^ N)).eval (Fin.snoc (α := fun _ => ℝ) r 1 l.castSucc) = 0
          rw [Fin.snoc_castSucc]; exact hz l
    obtain ⟨r', hm', hin', hd'⟩ := rolle_gaps hs hz'
    refine ⟨r', hm', fun i => ⟨?_, ?_⟩, fun i => ?_⟩
    · exact lt_of_le_of_lt (hs0 ▸ hs.monotone (Fin.zero_le _)) (hin' i).1
    · exact lt_of_lt_of_le (hin' i).2 (hlast ▸ hs.monotone (Fin.le_last _))
    · rw [Function.iterate_succ_apply']; exact hd' i

/-- The derivative of `P N` has `N-1` distinct roots in the open interval. -/
theorem derivative_zeros (hN : 1 ≤ N) : ∃ r : Fin (N - 1) → ℝ, StrictMono r ∧ (∀ i, -1 < r i ∧ r i < 1) ∧
    ∀ i, (derivative (P N)).eval (r i) = 0 := by
  obtain ⟨n, rfl⟩ : ∃ n, N = n + 1 := ⟨N - 1, by omega⟩
  obtain ⟨r, hm, hin, hz⟩ := iter_zeros (n + 1) (n + 1) le_rfl
  obtain ⟨r', hm', hin', hz'⟩ := rolle_gaps hm (q := P (n + 1)) (fun i => by rw [legendre, eval_mul, hz, mul_zero])
  exact ⟨r', hm', fun i => ⟨(hin _).1.trans (hin' i).1, (hin' i).2.trans (hin _).2⟩, hz'⟩

/-- All roots of the derivative of `P N`. -/
theorem derivative_roots (hN : 1 ≤ N) : ∃ r : Fin (N - 1) → ℝ, StrictMono r ∧ (∀ i, -1 < r i ∧ r i < 1) ∧
    (derivative (P N)).roots = (List.ofFn r : Multiset ℝ) := by
  obtain ⟨r, hm, hin, hz⟩ := derivative_zeros hN
  have hne : derivative (P N) ≠ 0 := by
    intro h
    have := derivative_P_one N
    rw [h, eval_zero] at this
    have := NN_ne_zero hN
    apply this; linarith
  refine ⟨r, hm, hin, ?_⟩
  symm
  have hnd : (List.ofFn r : Multiset ℝ).Nodup := by
    rw [Multiset.coe_nodup, List.nodup_ofFn]; exact hm.injective
  refine Multiset.eq_of_le_of_card_le ?_ ?_
  · rw [Multiset.le_iff_subset hnd]
    intro t ht
    rw [Multiset.mem_coe, List.mem_ofFn] at ht
    obtain ⟨i, rfl⟩ := ht
    rw [mem_roots hne, IsRoot.def]; exact hz i
  · rw [Multiset.coe_card, List.length_ofFn]
    refine (card_roots' _).trans ?_
    have := natDegree_derivative_le (P N)
    rwa [legendre_natDegree] at this

/-! ### Size of the coefficients -/

/-- Nonzero coefficients are at least `2^-n` in modulus. -/
theorem coeff_large (n k : ℕ) (h : (P n).coeff k ≠ 0) : 1 ≤ 2 ^ n * |(P n).coeff k| := by
  have e : P n = C ((2 ^ n : ℝ)⁻¹) * map (Int.castRingHom ℝ) (hasseDeriv n ((X ^ 2 - 1 : ℤ[X]) ^ n)) := by
    have hm : map (Int.castRingHom ℝ) (hasseDeriv n ((X ^ 2 - 1 : ℤ[X]) ^ n)) = hasseDeriv n ((X ^ 2 - 1 : ℝ[X]) ^ n) := by
      ext m
      rw [coeff_map, hasseDeriv_coeff, hasseDeriv_coeff]
      have : ((X ^ 2 - 1 : ℝ[X]) ^ n) = map (Int.castRingHom ℝ) ((X ^ 2 - 1 : ℤ[X]) ^ n) := by simp
      rw [this, coeff_map]; simp
    rw [hm, legendre, ← factorial_smul_hasseDeriv, LinearMap.smul_apply, nsmul_eq_mul, ← mul_assoc, mul_inv, C_mul, mul_assoc (C _),
      ← C_eq_natCast, ← C_mul, inv_mul_cancel₀ (by exact_mod_cast Nat.factorial_ne_zero n), C_1, mul_one]
  rw [e, coeff_C_mul, coeff_map] at h ⊢
  have h2 : (hasseDeriv n ((X ^ 2 - 1 : ℤ[X]) ^ n)).coeff k ≠ 0 := by
    intro h0; apply h; rw [h0]; simp
  have h3 : (1 : ℝ) ≤ |((hasseDeriv n ((X ^ 2 - 1 : ℤ[X]) ^ n)).coeff k : ℝ)| := by
    exact_mod_cast Int.one_le_abs h2
  rw [abs_mul, abs_of_pos (by positivity), ← mul_assoc, mul_inv_cancel₀ (by positivity), one_mul]
  exact h3

end PolyMPC.Lgl
