import Mathlib.LinearAlgebra.Lagrange
import Mathlib.Tactic.LinearCombination
import Mathlib.Tactic.FieldSimp

/-! Differentiation of interpolation polynomials at the interpolation nodes. -/

set_option linter.unusedSectionVars false

namespace PolyMPC.Lagrange
open Polynomial Finset

variable {F : Type*} [Field F] {ι : Type*} [DecidableEq ι] [Fintype ι]

/-- A polynomial of degree at most the number of nodes which vanishes at all nodes is a multiple of the nodal polynomial. -/
theorem eq_smul_nodal {v : ι → F} (hv : Function.Injective v) {q : F[X]} (hd : q.natDegree ≤ Fintype.card ι)
    (h0 : ∀ i, q.eval (v i) = 0) :
    q = C (q.coeff (Fintype.card ι)) * Lagrange.nodal univ v := by
  rw [← sub_eq_zero]
  refine Polynomial.eq_zero_of_degree_lt_of_eval_index_eq_zero (v := v) (s := univ) hv.injOn ?_ ?_
  · rw [card_univ]
    have hm := Lagrange.nodal_monic (s := univ) (v := v)
    have hn : (Lagrange.nodal univ v).natDegree = Fintype.card ι := by rw [Lagrange.natDegree_nodal, card_univ]
    have hle : (q - C (q.coeff (Fintype.card ι)) * Lagrange.nodal univ v).natDegree ≤ Fintype.card ι :=
      (natDegree_sub_le _ _).trans (max_le hd ((natDegree_C_mul_le _ _).trans hn.le))
    have hc : (q - C (q.coeff (Fintype.card ι)) * Lagrange.nodal univ v).coeff (Fintype.card ι) = 0 := by
      have : (Lagrange.nodal univ v).coeff (Fintype.card ι) = 1 := by
        have h := hm.coeff_natDegree
        rwa [hn] at h
      rw [coeff_sub, coeff_C_mul, this, mul_one, sub_self]
    rw [degree_lt_iff_coeff_zero]
    intro m hm'
    rcases hm'.eq_or_lt with h | h
    · rw [← h]; exact hc
    · exact coeff_eq_zero_of_natDegree_lt (lt_of_le_of_lt hle h)
  · intro i hi
    rw [eval_sub, eval_mul, Lagrange.eval_nodal_at_node hi, h0, mul_zero, sub_zero]

/-- Derivative of a Lagrange basis polynomial at another node. -/
theorem derivative_basis {v : ι → F} (hv : Function.Injective v) {i j : ι} (hij : i ≠ j) :
    (derivative (Lagrange.basis univ v j)).eval (v i) =
      (derivative (Lagrange.nodal univ v)).eval (v i) / ((derivative (Lagrange.nodal univ v)).eval (v j) * (v i - v j)) := by
  have hne : v i - v j ≠ 0 := sub_ne_zero.mpr (hv.ne hij)
  rw [Lagrange.basis_eq_prod_sub_inv_mul_nodal_div (mem_univ j), ← Lagrange.nodal_erase_eq_nodal_div (mem_univ j),
    Lagrange.nodalWeight_eq_eval_derivative_nodal (mem_univ j), derivative_C_mul, eval_mul, eval_C,
    Lagrange.eval_nodal_derivative_eval_node_eq (mem_erase.mpr ⟨hij, mem_univ i⟩),
    Lagrange.eval_nodal_derivative_eval_node_eq (mem_univ i),
    Lagrange.nodal_eq_mul_nodal_erase (s := univ.erase i) (mem_erase.mpr ⟨hij.symm, mem_univ j⟩), eval_mul,
    eval_sub, eval_X, eval_C, erase_right_comm]
  field_simp

/-- Off-diagonal quotients of a differentiation matrix, computed from any polynomial `q` with simple zeros at the nodes. -/
theorem derivative_basis_of_vanishing {v : ι → F} (hv : Function.Injective v) {q : F[X]}
    (hd : q.natDegree ≤ Fintype.card ι) (h0 : ∀ i, q.eval (v i) = 0) {i j : ι} (hij : i ≠ j)
    (hq : (derivative q).eval (v j) ≠ 0) :
    (derivative (Lagrange.basis univ v j)).eval (v i) =
      (derivative q).eval (v i) / (derivative q).eval (v j) / (v i - v j) := by
  have hq' := eq_smul_nodal hv hd h0
  set a := q.coeff (Fintype.card ι)
  rw [hq', derivative_C_mul, eval_mul, eval_C] at hq
  have ha : a ≠ 0 := left_ne_zero_of_mul hq
  rw [derivative_basis hv hij, hq', derivative_C_mul, eval_mul, eval_mul, eval_C, eval_C, mul_div_mul_left _ _ ha, div_div]

/-- A polynomial of degree below the number of nodes is differentiated by its node values. -/
theorem derivative_eval_eq_sum {v : ι → F} (hv : Function.Injective v) {p : F[X]} (hp : p.degree < Fintype.card ι)
    (x : F) :
    (derivative p).eval x = ∑ j, p.eval (v j) * (derivative (Lagrange.basis univ v j)).eval x := by
  have h := Lagrange.eq_interpolate (f := p) (s := univ) hv.injOn (by rwa [card_univ])
  rw [Lagrange.interpolate_apply] at h
  conv_lhs => rw [h]
  simp [eval_finsetSum]

theorem sum_derivative_basis [Nonempty ι] {v : ι → F} (hv : Function.Injective v) (x : F) :
    ∑ j, (derivative (Lagrange.basis univ v j)).eval x = 0 := by
  have := Lagrange.sum_basis (s := univ) hv.injOn univ_nonempty
  have h2 := congrArg (fun p => (derivative p).eval x) this
  simpa [derivative_sum, eval_finsetSum] using h2

/-- A matrix with the right off-diagonal entries and vanishing row sums differentiates every polynomial of degree below
the number of nodes. -/
theorem diff_exact [Nonempty ι] {v : ι → F} (hv : Function.Injective v) {D : ι → ι → F}
    (hoff : ∀ i j, i ≠ j → D i j = (derivative (Lagrange.basis univ v j)).eval (v i)) (hrow : ∀ i, ∑ j, D i j = 0)
    {p : F[X]} (hp : p.degree < Fintype.card ι) (i : ι) :
    ∑ j, D i j * p.eval (v j) = (derivative p).eval (v i) := by
  have hdiag : D i i = (derivative (Lagrange.basis univ v i)).eval (v i) := by
    have h1 := hrow i
    have h2 := sum_derivative_basis hv (v i)
    rw [← add_sum_erase _ _ (mem_univ i)] at h1 h2
    have h3 : ∑ j ∈ univ.erase i, D i j = ∑ j ∈ univ.erase i, (derivative (Lagrange.basis univ v j)).eval (v i) :=
      sum_congr rfl fun j hj => hoff i j (mem_erase.mp hj).1.symm
    linear_combination h1 - h2 - h3
  rw [derivative_eval_eq_sum hv hp]
  refine sum_congr rfl fun j _ => ?_
  by_cases hij : i = j
  · subst hij; rw [hdiag, mul_comm]
  · rw [hoff i j hij, mul_comm]

end PolyMPC.Lagrange
