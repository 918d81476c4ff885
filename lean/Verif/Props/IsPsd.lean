import Verif.Model.Psarc
import Mathlib.Analysis.Matrix.PosDef
import Mathlib.Analysis.Matrix.Spectrum
import Mathlib.Data.Complex.Basic
import Mathlib.Tactic.NormNum
import Mathlib.Tactic.LinearCombination

/-! # The test for positive semidefiniteness (C162) -/

namespace PolyMPC.Psarc
open Polynomial

/-- What the eigenvalue solver returns: the real parts of the roots of the characteristic polynomial. -/
def Eigenvalues {n : ℕ} (A : Matrix (Fin n) (Fin n) ℝ) (re : ℕ → ℝ) : Prop :=
  ∃ ev : Fin n → ℂ, (A.map ((↑) : ℝ → ℂ)).charpoly = ∏ i, (X - C (ev i)) ∧ ∀ i : Fin n, re i = (ev i).re

theorem isPsdLoop_iff [DecidableLT ℝ] (re : ℕ → ℝ) (m i : ℕ) : isPsdLoop re m i = true ↔ ∀ k < m, 0 ≤ re (i + k) := by
  induction m generalizing i with
  | zero => exact ⟨fun _ k hk => absurd hk (Nat.not_lt_zero k), fun _ => rfl⟩
  | succ m ih =>
    unfold isPsdLoop
    by_cases h : re i < 0
    · rw [if_pos h]
      exact ⟨fun e => (by cases e), fun e => absurd (e 0 (Nat.succ_pos m)) (not_le.2 h)⟩
    · rw [if_neg h, ih]
      constructor
      · intro e k hk
        cases k with
        | zero => exact not_lt.1 h
        | succ k => have := e k (by omega); rwa [show i + 1 + k = i + (k + 1) by omega] at this
      · intro e k hk
        have := e (k + 1) (by omega)
        rwa [show i + (k + 1) = i + 1 + k by omega] at this

/-- **C162.** For a symmetric matrix whose size is known at compile time the test succeeds exactly if the matrix is positive semidefinite. -/
theorem is_psd_symm {n : ℕ} {A : Matrix (Fin n) (Fin n) ℝ} (hA : A.transpose = A) {re : ℕ → ℝ} (hre : Eigenvalues A re) :
    isPsd n re = true ↔ ∀ v : Fin n → ℝ, 0 ≤ ∑ i, ∑ j, v i * A i j * v j := by
  have hH : A.IsHermitian := by
    rw [Matrix.IsHermitian, Matrix.conjTranspose_eq_transpose_of_trivial]; exact hA
  obtain ⟨ev, hcp, hev⟩ := hre
  have h1 : (A.map ((↑) : ℝ → ℂ)).charpoly = ∏ i, (X - C ((hH.eigenvalues i : ℝ) : ℂ)) := by
    have := congrArg (Polynomial.map (Complex.ofRealHom)) hH.charpoly_eq
    rw [← Matrix.charpoly_map, Polynomial.map_prod] at this
    refine this.trans (Finset.prod_congr rfl fun i _ => ?_)
    rw [Polynomial.map_sub, Polynomial.map_X, Polynomial.map_C]
    rfl
  rw [h1] at hcp
  have hset : ∀ z : ℂ, (∃ i, z = ((hH.eigenvalues i : ℝ) : ℂ)) ↔ ∃ i, z = ev i := by
    intro z
    have := congrArg (Polynomial.eval z) hcp
    rw [Polynomial.eval_prod, Polynomial.eval_prod] at this
    simp only [eval_sub, eval_X, eval_C] at this
    constructor
    · rintro ⟨i, hi⟩
      rw [Finset.prod_eq_zero (Finset.mem_univ i) (sub_eq_zero.2 hi)] at this
      obtain ⟨j, -, hj⟩ := Finset.prod_eq_zero_iff.1 this.symm
      exact ⟨j, sub_eq_zero.1 hj⟩
    · rintro ⟨i, hi⟩
      rw [Finset.prod_eq_zero (f := fun i => z - ev i) (Finset.mem_univ i) (sub_eq_zero.2 hi)] at this
      obtain ⟨j, -, hj⟩ := Finset.prod_eq_zero_iff.1 this
      exact ⟨j, sub_eq_zero.1 hj⟩
  have h2 : isPsd n re = true ↔ ∀ i, 0 ≤ hH.eigenvalues i := by
    unfold isPsd
    rw [isPsdLoop_iff, Int.toNat_natCast]
    constructor
    · intro h i
      obtain ⟨j, hj⟩ := (hset _).1 ⟨i, rfl⟩
      have := h j j.2
      rwa [Nat.zero_add, hev, ← hj, Complex.ofReal_re] at this
    · intro h k hk
      rw [Nat.zero_add]
      obtain ⟨j, hj⟩ := (hset _).2 ⟨⟨k, hk⟩, rfl⟩
      have := hev ⟨k, hk⟩
      rw [show re k = _ from this, hj, Complex.ofReal_re]
      exact h j
  rw [h2]
  have h3 := hH.posSemidef_iff_eigenvalues_nonneg
  have h4 : A.PosSemidef ↔ ∀ v : Fin n → ℝ, 0 ≤ ∑ i, ∑ j, v i * A i j * v j := by
    rw [Matrix.posSemidef_iff_dotProduct_mulVec]
    have e : ∀ v : Fin n → ℝ, star v ⬝ᵥ A.mulVec v = ∑ i, ∑ j, v i * A i j * v j := by
      intro v
      simp only [dotProduct, Matrix.mulVec, star_trivial, Finset.mul_sum, mul_assoc]
    constructor
    · rintro ⟨-, h⟩ v; rw [← e]; exact h v
    · intro h; exact ⟨hH, fun v => by rw [e]; exact h v⟩
  rw [← h4, h3]
  exact ⟨fun h i => h i, fun h i => h i⟩

/-- **C162 (negative).** For a matrix of dynamic size the test succeeds whatever the matrix, for example for negative definite matrices of all sizes. -/
theorem is_psd_dynamic (n : ℕ) : ∃ (A : Matrix (Fin n) (Fin n) ℝ) (re : ℕ → ℝ), A.transpose = A ∧ Eigenvalues A re ∧ isPsd (-1) re = true ∧
    ∀ v : Fin n → ℝ, v ≠ 0 → ∑ i, ∑ j, v i * A i j * v j < 0 := by
  refine ⟨Matrix.diagonal fun _ => -1, fun _ => -1, Matrix.diagonal_transpose _, ⟨fun _ => -1, ?_, fun i => by simp⟩, rfl, fun v hv => ?_⟩
  · rw [Matrix.diagonal_map (by simp), Matrix.charpoly_diagonal]
    simp
  · have e : ∀ i, ∑ j, v i * Matrix.diagonal (fun _ => (-1 : ℝ)) i j * v j = -(v i * v i) := by
      intro i
      rw [Finset.sum_eq_single i]
      · rw [Matrix.diagonal_apply_eq]; ring
      · intro j _ hj; rw [Matrix.diagonal_apply_ne _ hj.symm]; ring
      · intro h; exact absurd (Finset.mem_univ i) h
    rw [Finset.sum_congr rfl fun i _ => e i, Finset.sum_neg_distrib, neg_lt_zero]
    obtain ⟨i, hi⟩ := Function.ne_iff.1 hv
    exact Finset.sum_pos' (fun i _ => mul_self_nonneg _) ⟨i, Finset.mem_univ i, mul_self_pos.2 hi⟩

/-- **C162 (negative).** Without symmetry the test says nothing about the quadratic form. -/
theorem is_psd_nonsymm : ∃ (A : Matrix (Fin 2) (Fin 2) ℝ) (re : ℕ → ℝ), Eigenvalues A re ∧ isPsd 2 re = true ∧ ∃ v : Fin 2 → ℝ, ∑ i, ∑ j, v i * A i j * v j < 0 := by
  refine ⟨!![1, 4; 0, 1], fun _ => 1, ⟨fun _ => 1, ?_, fun i => by simp⟩, ?_, ![1, -1], ?_⟩
  · rw [Matrix.charpoly_fin_two, Fin.prod_univ_two]
    simp [Matrix.trace_fin_two, Matrix.det_fin_two]
    ring
  · unfold isPsd
    rw [isPsdLoop_iff]
    intro _ _; norm_num
  · simp [Fin.sum_univ_two]
    norm_num

/-- Nonvacuity of `is_psd_symm`: a symmetric matrix that is not positive semidefinite. -/
example : isPsd 2 (fun i => if i = 0 then 3 else -1) = false ∧ Eigenvalues !![1, 2; 2, 1] (fun i => if i = 0 then 3 else -1) := by
  constructor
  · have h : ¬ isPsd 2 (fun i => if i = 0 then 3 else -1) = true := by
      unfold isPsd
      rw [isPsdLoop_iff]
      intro h
      have := h 1 (by decide)
      norm_num at this
    exact Bool.not_eq_true _ ▸ h
  · refine ⟨![3, -1], ?_, fun i => by fin_cases i <;> simp⟩
    rw [Matrix.charpoly_fin_two, Fin.prod_univ_two]
    simp [Matrix.trace_fin_two, Matrix.det_fin_two]
    have e2 : (C (2 : ℂ) : ℂ[X]) = 2 := map_ofNat C 2
    have e3 : (C (3 : ℂ) : ℂ[X]) = 3 := map_ofNat C 3
    rw [e2, e3]
    ring

end PolyMPC.Psarc
