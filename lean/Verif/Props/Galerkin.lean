import Verif.Props.LegendreScheme
import Mathlib.LinearAlgebra.Lagrange

/-!
# Property C196: products of Legendre expansions by the Galerkin tensor
-/

set_option linter.unusedSectionVars false

namespace PolyMPC.Lgl
open PolyMPC.PolyMath PolyMPC.Cheb PolyMPC.Spec Polynomial
open scoped Polynomial

variable {N : ℕ} {S : Scheme N}

/-- The value at `t` of the expansion with the coefficients `u`. -/
noncomputable def Scheme.expand (S : Scheme N) (u : Fin (N + 1) → ℝ) (t : ℝ) : ℝ := ∑ i, u i * S.eval t i

/-- The coefficients of the product of two expansions, as the tensor gives them. -/
noncomputable def Scheme.product (S : Scheme N) (u v : Fin (N + 1) → ℝ) (k : Fin (N + 1)) : ℝ := ∑ i, ∑ j, u i * v j * S.galerkin i j k

/-- Projecting a function and expanding again gives the function back at the nodes. -/
theorem Built.expand_project (h : Built N S) (f : Fin (N + 1) → ℝ) (n : Fin (N + 1)) :
    ∑ k, (S.factors k * ∑ i, f i * S.eval (S.nodes i) k * S.weights i) * S.eval (S.nodes n) k = f n := by
  have hinj : Set.InjOn S.nodes (Finset.univ : Finset (Fin (N + 1))) := h.nodes.mono.injective.injOn
  set p := Lagrange.interpolate Finset.univ S.nodes f with hp
  have hd : p.natDegree ≤ N := by
    have := Lagrange.degree_interpolate_lt f hinj
    rw [Finset.card_univ, Fintype.card_fin] at this
    rcases eq_or_ne p 0 with h0 | h0
    · rw [h0]; simp
    · exact Nat.lt_succ_iff.mp ((natDegree_lt_iff_degree_lt h0).mpr this)
  have he : ∀ i, p.eval (S.nodes i) = f i := fun i => Lagrange.eval_interpolate_at_node f hinj (Finset.mem_univ i)
  have := h.projection_reproduces hd (a := -1) (b := 1) (by norm_num) (S.nodes n)
  rw [he] at this
  rw [← this]
  refine Finset.sum_congr rfl fun k _ => ?_
  simp only [project, Scheme.toBasis, k.isLt, dif_pos, Fin.eta]
  norm_num
  left
  left
  exact Finset.sum_congr rfl fun i _ => by rw [he]

theorem Scheme.product_eq (S : Scheme N) (u v : Fin (N + 1) → ℝ) (k : Fin (N + 1)) :
    S.product u v k = S.factors k * ∑ n, (S.expand u (S.nodes n) * S.expand v (S.nodes n)) * S.eval (S.nodes n) k * S.weights n := by
  unfold Scheme.product Scheme.galerkin Scheme.expand
  simp only [Finset.sum_mul, Finset.mul_sum]
  rw [Finset.sum_congr rfl fun i _ => Finset.sum_comm, Finset.sum_comm]
  refine Finset.sum_congr rfl fun n _ => ?_
  rw [Finset.sum_comm]
  refine Finset.sum_congr rfl fun i _ => Finset.sum_congr rfl fun j _ => ?_
  ring

/-- C196. At every node the expansion with the coefficients given by the tensor is the product of the two expansions. -/
theorem Built.product_at_nodes (h : Built N S) (u v : Fin (N + 1) → ℝ) (n : Fin (N + 1)) :
    S.expand (S.product u v) (S.nodes n) = S.expand u (S.nodes n) * S.expand v (S.nodes n) := by
  have := h.expand_project (fun i => S.expand u (S.nodes i) * S.expand v (S.nodes i)) n
  rw [← this]
  unfold Scheme.expand
  exact Finset.sum_congr rfl fun k _ => by rw [S.product_eq]; rfl

theorem Built.expand_eval (h : Built N S) (u : Fin (N + 1) → ℝ) (t : ℝ) : S.expand u t = (∑ i, C (u i) * legendre ℝ i.val).eval t := by
  unfold Scheme.expand
  rw [eval_finsetSum]
  exact Finset.sum_congr rfl fun i _ => by rw [eval_mul, eval_C, h.eval]

/-- C196. If the degrees of the two expansions add up to at most `N`, the product is exact everywhere. -/
theorem Built.product_exact (h : Built N S) {a b : ℕ} (hab : a + b ≤ N) {u v : Fin (N + 1) → ℝ} (hu : ∀ i : Fin (N + 1), a < i.val → u i = 0)
    (hv : ∀ i : Fin (N + 1), b < i.val → v i = 0) (t : ℝ) : S.expand (S.product u v) t = S.expand u t * S.expand v t := by
  have hdeg : ∀ (c : ℕ) (w : Fin (N + 1) → ℝ), (∀ i : Fin (N + 1), c < i.val → w i = 0) → (∑ i, C (w i) * legendre ℝ i.val).natDegree ≤ c := by
    intro c w hw
    refine natDegree_sum_le_of_forall_le _ _ fun i _ => ?_
    by_cases hi : c < i.val
    · rw [hw i hi]; simp
    · refine (natDegree_C_mul_le _ _).trans ?_
      rw [legendre_natDegree]; omega
  set p := (∑ i, C (u i) * legendre ℝ i.val) * ∑ i, C (v i) * legendre ℝ i.val with hp
  have hpd : p.natDegree ≤ N := (natDegree_mul_le).trans ((Nat.add_le_add (hdeg a u hu) (hdeg b v hv)).trans hab)
  have he : ∀ x, p.eval x = S.expand u x * S.expand v x := fun x => by rw [hp, eval_mul, h.expand_eval, h.expand_eval]
  have := h.projection_reproduces hpd (a := -1) (b := 1) (by norm_num) t
  rw [he] at this
  rw [← this]
  refine Finset.sum_congr rfl fun k _ => ?_
  simp only [project, Scheme.toBasis, k.isLt, dif_pos, Fin.eta]
  rw [S.product_eq]
  norm_num
  left
  left
  exact Finset.sum_congr rfl fun i _ => by rw [he]

/-- C196. The entries are the coefficients of the orthogonal projection of `P_i P_j` on `P_k` if the quadrature is exact for the degree. -/
theorem Built.galerkin_exact (h : Built N S) {i j k : Fin (N + 1)} (hijk : i.val + j.val + k.val ≤ 2 * N - 1) (hk : k.val < N) :
    S.galerkin i j k = (2 * k.val + 1) / 2 * ∫ t in (-1 : ℝ)..1, (legendre ℝ i.val).eval t * (legendre ℝ j.val).eval t * (legendre ℝ k.val).eval t := by
  obtain ⟨-, -, -, -, h5⟩ := h.spec
  have hd : (legendre ℝ i.val * legendre ℝ j.val * legendre ℝ k.val).natDegree ≤ 2 * N - 1 := by
    refine natDegree_mul_le.trans ?_
    refine (Nat.add_le_add_right natDegree_mul_le _).trans ?_
    rw [legendre_natDegree, legendre_natDegree, legendre_natDegree]
    exact hijk
  have := h.weights_exact hd
  simp only [eval_mul] at this
  unfold Scheme.galerkin
  rw [h5, normFactors, if_neg hk.ne, ← this]
  congr 1
  exact Finset.sum_congr rfl fun n _ => by rw [h.eval, h.eval, h.eval]

/-- C196. Beyond this degree they are not: the entry for `P_N²` and `P_0` is `1 / N`, the coefficient is `1 / (2 N + 1)`. -/
theorem Built.galerkin_inexact (h : Built N S) :
    S.galerkin (Fin.last N) (Fin.last N) 0 = 1 / N ∧
    (1 : ℝ) / 2 * (∫ t in (-1 : ℝ)..1, (legendre ℝ N).eval t * (legendre ℝ N).eval t * (legendre ℝ 0).eval t) = 1 / (2 * N + 1) ∧
    (1 : ℝ) / N ≠ 1 / (2 * N + 1) := by
  have hN : (0 : ℝ) < N := by exact_mod_cast h.order
  refine ⟨?_, ?_, ?_⟩
  · obtain ⟨-, -, -, -, h5⟩ := h.spec
    have hi := h.inner (Fin.last N) (Fin.last N)
    rw [if_pos rfl, h5, normFactors, if_pos (Fin.val_last N)] at hi
    unfold Scheme.galerkin
    rw [h5, normFactors, if_neg (by have := h.order; simp; omega)]
    have e : ∑ n, S.eval (S.nodes n) (Fin.last N) * S.eval (S.nodes n) (Fin.last N) * S.eval (S.nodes n) 0 * S.weights n =
        ∑ n, (legendre ℝ (Fin.last N).val).eval (S.nodes n) * (legendre ℝ (Fin.last N).val).eval (S.nodes n) * S.weights n := by
      refine Finset.sum_congr rfl fun n _ => ?_
      rw [h.eval, h.eval]
      simp [legendre_zero]
    rw [e]
    field_simp at hi ⊢
    simp only [Fin.val_last] at hi
    simp
    linarith
  · have : (∫ t in (-1 : ℝ)..1, (legendre ℝ N).eval t * (legendre ℝ N).eval t * (legendre ℝ 0).eval t) = integralL (-1) 1 (legendre ℝ N * legendre ℝ N) := by
      rw [I_apply]; simp [legendre_zero]
    rw [this, I_norm]
    field_simp
  · intro hc
    rw [div_eq_div_iff hN.ne' (by positivity)] at hc
    linarith

/-- Order one: the product of `P_1` with itself comes out as `P_0`, which is right at the nodes `-1`, `1` and nowhere else. -/
example {S : Scheme 1} (h : Built 1 S) : S.galerkin 1 1 0 = 1 := by
  have := h.galerkin_inexact.1
  simpa using this

example : ∃ S : Scheme 3, Built 3 S := exists_built (by norm_num)

end PolyMPC.Lgl
