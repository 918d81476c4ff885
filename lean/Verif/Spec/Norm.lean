import Mathlib.Algebra.Order.Field.Basic
import Mathlib.Algebra.Order.AbsoluteValue.Basic
import Mathlib.Data.Finset.Fold
import Mathlib.Data.Fintype.Basic
import Mathlib.Data.Fintype.Sum
import Mathlib.Data.Finset.Lattice.Fold
import Mathlib.Algebra.BigOperators.Group.Finset.Basic
import Mathlib.Algebra.BigOperators.Fin
import Mathlib.Algebra.Order.BigOperators.Group.Finset

/-!
# Norms of finite vectors over an ordered field
-/

set_option linter.unusedSectionVars false

namespace PolyMPC.Spec

variable {K : Type*} [Field K] [LinearOrder K] [IsStrictOrderedRing K] {ι κ : Type*} [Fintype ι] [Fintype κ]

/-- Largest absolute value of the entries, `0` for an empty vector (this is what `lpNorm<Eigen::Infinity>()` returns). -/
def infNorm (v : ι → K) : K := Finset.univ.fold max 0 (fun i => |v i|)

/-- `sq` computes square roots of nonnegative numbers. -/
def IsSqrt (sq : K → K) : Prop := ∀ a, 0 ≤ a → 0 ≤ sq a ∧ sq a * sq a = a

theorem IsSqrt.pos {sq : K → K} (h : IsSqrt sq) {a : K} (ha : 0 < a) : 0 < sq a := by
  obtain ⟨h1, h2⟩ := h a ha.le
  refine lt_of_le_of_ne h1 fun h0 => ?_
  rw [← h0, mul_zero] at h2
  exact ha.ne h2

/-- Sum of the absolute values of the entries. -/
def oneNorm (v : ι → K) : K := ∑ i, |v i|

theorem infNorm_nonneg (v : ι → K) : 0 ≤ infNorm v := by
  unfold infNorm; rw [Finset.le_fold_max]; exact Or.inl le_rfl

theorem le_infNorm (v : ι → K) (i : ι) : |v i| ≤ infNorm v := by
  unfold infNorm; rw [Finset.le_fold_max]; exact Or.inr ⟨i, Finset.mem_univ _, le_rfl⟩

theorem infNorm_le_iff (v : ι → K) {r : K} : infNorm v ≤ r ↔ 0 ≤ r ∧ ∀ i, |v i| ≤ r := by
  unfold infNorm; rw [Finset.fold_max_le]; simp

/-- Characterisation of `infNorm`: an upper bound of the absolute values, attained or zero. -/
theorem infNorm_attained (v : ι → K) : infNorm v = 0 ∨ ∃ i, |v i| = infNorm v := by
  by_contra h
  push Not at h
  obtain ⟨h0, h1⟩ := h
  have hlt : infNorm v < infNorm v := by
    conv_lhs => unfold infNorm
    rw [Finset.fold_max_lt]
    exact ⟨lt_of_le_of_ne (infNorm_nonneg v) (Ne.symm h0), fun i _ => lt_of_le_of_ne (le_infNorm v i) (h1 i)⟩
  exact lt_irrefl _ hlt

theorem infNorm_sumElim (u : ι → K) (v : κ → K) : infNorm (Sum.elim u v) = max (infNorm u) (infNorm v) := by
  apply le_antisymm
  · rw [infNorm_le_iff]
    refine ⟨le_max_of_le_left (infNorm_nonneg u), ?_⟩
    rintro (i | i)
    · exact le_max_of_le_left (le_infNorm u i)
    · exact le_max_of_le_right (le_infNorm v i)
  · refine max_le ?_ ?_ <;> rw [infNorm_le_iff] <;> refine ⟨infNorm_nonneg _, fun i => ?_⟩
    · exact le_infNorm (Sum.elim u v) (Sum.inl i)
    · exact le_infNorm (Sum.elim u v) (Sum.inr i)

theorem oneNorm_nonneg (v : ι → K) : 0 ≤ oneNorm v := Finset.sum_nonneg fun _ _ => abs_nonneg _

/-- Hölder's inequality for the pair (maximum norm, one norm). -/
theorem abs_sum_mul_le (u v : ι → K) : |∑ i, u i * v i| ≤ infNorm u * oneNorm v := by
  refine (Finset.abs_sum_le_sum_abs _ _).trans ?_
  unfold oneNorm
  rw [Finset.mul_sum]
  refine Finset.sum_le_sum fun i _ => ?_
  rw [abs_mul]
  exact mul_le_mul_of_nonneg_right (le_infNorm u i) (abs_nonneg _)

end PolyMPC.Spec
