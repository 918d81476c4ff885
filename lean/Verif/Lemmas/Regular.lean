import Verif.Spec.QP
import Mathlib.Analysis.Normed.Module.FiniteDimension
import Mathlib.Topology.Algebra.Module.FiniteDimension
import Mathlib.LinearAlgebra.Matrix.ToLin
import Mathlib.LinearAlgebra.Matrix.DotProduct
import Mathlib.Analysis.Normed.Order.Lattice
import Mathlib.Algebra.Order.BigOperators.Ring.Finset
import Mathlib.Topology.Order.Compact

/-!
# Perturbation of the optimality conditions of a strictly convex quadratic program

Vectors carry the maximum norm.
-/

set_option linter.unusedSectionVars false

namespace PolyMPC.Spec
open Matrix

variable {n : ℕ} {ι : Type*} [Fintype ι]

theorem dot_le {κ : Type*} [Fintype κ] (u v : κ → ℝ) : |u ⬝ᵥ v| ≤ Fintype.card κ * (‖u‖ * ‖v‖) := by
  unfold dotProduct
  refine (Finset.abs_sum_le_sum_abs _ _).trans ?_
  rw [← nsmul_eq_mul, ← Finset.card_univ]
  refine Finset.sum_le_card_nsmul _ _ _ fun i _ => ?_
  rw [abs_mul]
  exact mul_le_mul (norm_le_pi_norm u i) (norm_le_pi_norm v i) (abs_nonneg _) (norm_nonneg _)

theorem mulVec_le {κ μ : Type*} [Fintype κ] [Fintype μ] {A : Matrix μ κ ℝ} {b : ℝ} (hb : 0 ≤ b) (hA : ∀ i j, |A i j| ≤ b) (v : κ → ℝ) :
    ‖A *ᵥ v‖ ≤ Fintype.card κ * b * ‖v‖ := by
  refine (pi_norm_le_iff_of_nonneg (by positivity)).2 fun i => ?_
  refine (dot_le (A i) v).trans ?_
  rw [mul_assoc]
  refine mul_le_mul_of_nonneg_left (mul_le_mul_of_nonneg_right ?_ (norm_nonneg _)) (by positivity)
  exact (pi_norm_le_iff_of_nonneg hb).2 fun j => hA i j

theorem sq_norm_le_dot {κ : Type*} [Fintype κ] (v : κ → ℝ) : ‖v‖ ^ 2 ≤ v ⬝ᵥ v := by
  have h0 : 0 ≤ v ⬝ᵥ v := Finset.sum_nonneg fun i _ => mul_self_nonneg _
  have h : ‖v‖ ≤ √(v ⬝ᵥ v) := by
    refine (pi_norm_le_iff_of_nonneg (Real.sqrt_nonneg _)).2 fun i => ?_
    rw [Real.norm_eq_abs]
    refine Real.abs_le_sqrt ?_
    rw [sq]
    exact Finset.single_le_sum (f := fun i => v i * v i) (fun i _ => mul_self_nonneg _) (Finset.mem_univ i)
  calc ‖v‖ ^ 2 ≤ √(v ⬝ᵥ v) ^ 2 := pow_le_pow_left₀ (norm_nonneg _) h 2
    _ = _ := Real.sq_sqrt h0

/-- A positive definite form is bounded below by a multiple of the square of the norm, also for nearby matrices. -/
theorem coercive_near {W : Matrix (Fin n) (Fin n) ℝ} (hW : ∀ v, v ≠ 0 → 0 < v ⬝ᵥ W *ᵥ v) :
    ∃ c > 0, ∃ ε > 0, ∀ H : Matrix (Fin n) (Fin n) ℝ, (∀ i j, |H i j - W i j| ≤ ε) → ∀ v, c * ‖v‖ ^ 2 ≤ v ⬝ᵥ H *ᵥ v := by
  have hc : ∃ c > 0, ∀ v, c * ‖v‖ ^ 2 ≤ v ⬝ᵥ W *ᵥ v := by
    by_cases hne : (Metric.sphere (0 : Fin n → ℝ) 1).Nonempty
    · have hcont : Continuous fun v : Fin n → ℝ => v ⬝ᵥ W *ᵥ v := by
        unfold mulVec dotProduct
        fun_prop
      obtain ⟨u, hu, hmin⟩ := (isCompact_sphere (0 : Fin n → ℝ) 1).exists_isMinOn hne hcont.continuousOn
      have hu1 : ‖u‖ = 1 := by simpa using hu
      refine ⟨u ⬝ᵥ W *ᵥ u, hW u fun h => by rw [h, norm_zero] at hu1; exact zero_ne_one hu1, fun v => ?_⟩
      by_cases hv : v = 0
      · rw [hv, norm_zero, zero_dotProduct]; simp
      · have hv' : 0 < ‖v‖ := norm_pos_iff.2 hv
        have h1 := hmin (a := ‖v‖⁻¹ • v) (by simp [norm_smul, hv'.ne'])
        simp only [Set.mem_ofPred_eq, mulVec_smul, dotProduct_smul, smul_dotProduct, smul_eq_mul] at h1
        calc u ⬝ᵥ W *ᵥ u * ‖v‖ ^ 2 ≤ ‖v‖⁻¹ * (‖v‖⁻¹ * (v ⬝ᵥ W *ᵥ v)) * ‖v‖ ^ 2 := mul_le_mul_of_nonneg_right h1 (by positivity)
          _ = v ⬝ᵥ W *ᵥ v := by field_simp
    · refine ⟨1, one_pos, fun v => ?_⟩
      have hv : v = 0 := by
        by_contra hv
        have hv' : 0 < ‖v‖ := norm_pos_iff.2 hv
        exact hne ⟨‖v‖⁻¹ • v, by simp [norm_smul, hv'.ne']⟩
      rw [hv, norm_zero, zero_dotProduct]; simp
  obtain ⟨c, hc0, hc⟩ := hc
  refine ⟨c / 2, by positivity, c / (2 * (n * n + 1)), by positivity, fun H hH v => ?_⟩
  have h1 : |v ⬝ᵥ (H - W) *ᵥ v| ≤ n * (‖v‖ * (n * (c / (2 * (n * n + 1))) * ‖v‖)) := by
    have := dot_le v ((H - W) *ᵥ v)
    rw [Fintype.card_fin] at this
    refine this.trans (mul_le_mul_of_nonneg_left (mul_le_mul_of_nonneg_left ?_ (norm_nonneg _)) (by positivity))
    have := mulVec_le (A := H - W) (b := c / (2 * (n * n + 1))) (by positivity) (fun i j => hH i j) v
    rwa [Fintype.card_fin] at this
  have h2 : (n : ℝ) * (‖v‖ * (n * (c / (2 * (n * n + 1))) * ‖v‖)) ≤ c / 2 * ‖v‖ ^ 2 := by
    have e : (n : ℝ) * (‖v‖ * (n * (c / (2 * (n * n + 1))) * ‖v‖)) = (c / 2 * ‖v‖ ^ 2) * ((n * n : ℝ) / (n * n + 1)) := by
      field_simp
    rw [e]
    refine mul_le_of_le_one_right (by positivity) ?_
    rw [div_le_one (by positivity)]
    linarith
  have h3 := (abs_le.1 (h1.trans h2)).1
  rw [sub_mulVec, dotProduct_sub] at h3
  have := hc v
  linarith

theorem independent_near_aux {κ : Type*} [Fintype κ] {B0 : Matrix κ (Fin n) ℝ} (hli : LinearIndependent ℝ fun i => B0 i) :
    ∃ ε > 0, ∃ C > 0, ∀ B : Matrix κ (Fin n) ℝ, (∀ i j, |B i j - B0 i j| ≤ ε) →
      (∀ μ : κ → ℝ, ‖μ‖ ≤ C * ‖Bᵀ *ᵥ μ‖) ∧ ∀ ρ : κ → ℝ, ∃ d : Fin n → ℝ, B *ᵥ d = ρ ∧ ‖d‖ ≤ C * ‖ρ‖ := by
  classical
  have hinj : LinearMap.ker (B0ᵀ).mulVecLin = ⊥ := by
    rw [LinearMap.ker_eq_bot']
    intro μ hμ
    rw [Fintype.linearIndependent_iff] at hli
    refine funext (hli μ ?_)
    rw [mulVecLin_apply] at hμ
    rw [← hμ]
    funext j
    rw [Finset.sum_apply]
    exact Finset.sum_congr rfl fun i _ => mul_comm _ _
  obtain ⟨K, hK0, hK⟩ := LinearMap.exists_antilipschitzWith _ hinj
  have hK0' : (0 : ℝ) < K := hK0
  have hK' : ∀ μ : κ → ℝ, ‖μ‖ ≤ K * ‖B0ᵀ *ᵥ μ‖ := fun μ => by
    have := hK.le_mul_dist μ 0
    rwa [map_zero, dist_zero_right, dist_zero_right, mulVecLin_apply] at this
  set N : ℝ := (Fintype.card κ : ℝ) with hNd
  have hN : 0 ≤ N := Nat.cast_nonneg _
  have hlow : ∀ B : Matrix κ (Fin n) ℝ, (∀ i j, |B i j - B0 i j| ≤ 1 / (2 * K * (N + 1))) → ∀ μ : κ → ℝ, ‖μ‖ ≤ 2 * K * ‖Bᵀ *ᵥ μ‖ := by
    intro B hB μ
    have h1 : ‖(Bᵀ - B0ᵀ) *ᵥ μ‖ ≤ N * (1 / (2 * K * (N + 1))) * ‖μ‖ :=
      mulVec_le (A := Bᵀ - B0ᵀ) (by positivity) (fun i j => hB j i) μ
    have h2 : K * (N * (1 / (2 * K * (N + 1))) * ‖μ‖) ≤ 1 / 2 * ‖μ‖ := by
      have e : K * (N * (1 / (2 * K * (N + 1))) * ‖μ‖) = 1 / 2 * ‖μ‖ * (N / (N + 1)) := by field_simp
      rw [e]
      refine mul_le_of_le_one_right (by positivity) ?_
      rw [div_le_one (by positivity)]
      linarith
    have h3 : ‖B0ᵀ *ᵥ μ‖ ≤ ‖Bᵀ *ᵥ μ‖ + ‖(Bᵀ - B0ᵀ) *ᵥ μ‖ := by
      have e : B0ᵀ *ᵥ μ = Bᵀ *ᵥ μ - (Bᵀ - B0ᵀ) *ᵥ μ := by rw [sub_mulVec, sub_sub_cancel]
      rw [e]; exact norm_sub_le _ _
    have h4 := hK' μ
    have h5 : K * ‖B0ᵀ *ᵥ μ‖ ≤ K * (‖Bᵀ *ᵥ μ‖ + ‖(Bᵀ - B0ᵀ) *ᵥ μ‖) := mul_le_mul_of_nonneg_left h3 hK0'.le
    have h6 := mul_le_mul_of_nonneg_left h1 hK0'.le
    linarith
  refine ⟨1 / (2 * K * (N + 1)), by positivity, 2 * K * (N + 1), by positivity, fun B hB => ⟨fun μ => ?_, fun ρ => ?_⟩⟩
  · refine (hlow B hB μ).trans (mul_le_mul_of_nonneg_right ?_ (norm_nonneg _))
    exact le_mul_of_one_le_right (by positivity) (by linarith)
  · have hMdot : ∀ μ : κ → ℝ, μ ⬝ᵥ (B * Bᵀ) *ᵥ μ = (Bᵀ *ᵥ μ) ⬝ᵥ (Bᵀ *ᵥ μ) := fun μ => by
      rw [← mulVec_mulVec, dotProduct_mulVec, ← mulVec_transpose]
    have hMinj : Function.Injective (B * Bᵀ).mulVecLin := by
      rw [← LinearMap.ker_eq_bot, LinearMap.ker_eq_bot']
      intro μ hμ
      rw [mulVecLin_apply] at hμ
      have h0 := hMdot μ
      rw [hμ, dotProduct_zero] at h0
      have h1 : Bᵀ *ᵥ μ = 0 := dotProduct_self_eq_zero.1 h0.symm
      have h2 := hlow B hB μ
      rw [h1, norm_zero, mul_zero] at h2
      exact norm_le_zero_iff.1 h2
    obtain ⟨μ, hμ⟩ := LinearMap.injective_iff_surjective.1 hMinj ρ
    rw [mulVecLin_apply] at hμ
    refine ⟨Bᵀ *ᵥ μ, by rw [mulVec_mulVec, hμ], ?_⟩
    have h1 := sq_norm_le_dot (Bᵀ *ᵥ μ)
    rw [← hMdot, hμ] at h1
    have h2 := (le_abs_self _).trans (dot_le μ ρ)
    rw [← hNd] at h2
    have h3 := hlow B hB μ
    set D := ‖Bᵀ *ᵥ μ‖ with hD
    have hD0 : 0 ≤ D := norm_nonneg _
    rcases hD0.eq_or_lt with h0 | hpos
    · rw [← h0]; positivity
    · have h4 : D * D ≤ (2 * K * (N + 1) * ‖ρ‖) * D := by
        calc D * D = D ^ 2 := by ring
          _ ≤ N * (‖μ‖ * ‖ρ‖) := h1.trans h2
          _ ≤ N * (2 * K * D * ‖ρ‖) := mul_le_mul_of_nonneg_left (mul_le_mul_of_nonneg_right h3 (norm_nonneg _)) hN
          _ ≤ (N + 1) * (2 * K * D * ‖ρ‖) := mul_le_mul_of_nonneg_right (by linarith) (by positivity)
          _ = _ := by ring
      exact le_of_mul_le_mul_right h4 hpos

/-- Rows that are linearly independent stay so in a neighbourhood, with bounds. -/
theorem independent_near {B0 : Matrix ι (Fin n) ℝ} {P : ι → Prop} (hli : LinearIndependent ℝ fun i : {i // P i} => B0 i) :
    ∃ ε > 0, ∃ C > 0, ∀ B : Matrix ι (Fin n) ℝ, (∀ i j, |B i j - B0 i j| ≤ ε) →
      (∀ μ : ι → ℝ, (∀ i, ¬ P i → μ i = 0) → ‖μ‖ ≤ C * ‖Bᵀ *ᵥ μ‖) ∧
      ∀ ρ : ι → ℝ, ∃ d : Fin n → ℝ, (∀ i, P i → (B *ᵥ d) i = ρ i) ∧ ‖d‖ ≤ C * ‖ρ‖ := by
  classical
  obtain ⟨ε, hε, C, hC, h⟩ := independent_near_aux (B0 := fun i : {i // P i} => B0 i) hli
  refine ⟨ε, hε, C, hC, fun B hB => ?_⟩
  obtain ⟨h1, h2⟩ := h (fun i : {i // P i} => B i) fun i j => hB i j
  refine ⟨fun μ hμ => ?_, fun ρ => ?_⟩
  · have e : Bᵀ *ᵥ μ = (fun i : {i // P i} => B i : Matrix {i // P i} (Fin n) ℝ)ᵀ *ᵥ fun i : {i // P i} => μ i := by
      funext j
      show ∑ i, B i j * μ i = ∑ i : {i // P i}, B i j * μ i
      rw [← Fintype.sum_subtype_add_sum_subtype P fun i => B i j * μ i]
      rw [add_eq_left]
      exact Finset.sum_eq_zero fun i _ => by rw [hμ i i.2, mul_zero]
    rw [e]
    refine le_trans ((pi_norm_le_iff_of_nonneg (norm_nonneg _)).2 fun i => ?_) (h1 _)
    by_cases hi : P i
    · exact norm_le_pi_norm (fun i : {i // P i} => μ i) ⟨i, hi⟩
    · rw [hμ i hi, norm_zero]; exact norm_nonneg _
  · obtain ⟨d, hd, hn⟩ := h2 fun i => ρ i
    refine ⟨d, fun i hi => congrFun hd ⟨i, hi⟩, hn.trans (mul_le_mul_of_nonneg_left ?_ hC.le)⟩
    exact (pi_norm_le_iff_of_nonneg (norm_nonneg _)).2 fun i => norm_le_pi_norm ρ i

/-- The difference to a feasible comparison point `d'` on which the bounds active at `z` (with multipliers `ys`) hold with equality. -/
theorem compare {B : Matrix ι (Fin n) ℝ} {H : Matrix (Fin n) (Fin n) ℝ} {lo up z v ys y : ι → ℝ} {d d' s : Fin n → ℝ}
    (hz : QP.InNormalCone lo up z ys) (hst : H *ᵥ d + Bᵀ *ᵥ (y - ys) = s) (hk : QP.InNormalCone lo up (v + B *ᵥ d) y)
    (hf : ∀ i, lo i ≤ (v + B *ᵥ d') i ∧ (v + B *ᵥ d') i ≤ up i) (hact : ∀ i, z i = lo i ∨ z i = up i → (v + B *ᵥ d') i = z i) :
    (d - d') ⬝ᵥ H *ᵥ (d - d') ≤ (d - d') ⬝ᵥ (s - H *ᵥ d') := by
  have hi : ∀ i, 0 ≤ (B *ᵥ (d - d')) i * (y - ys) i := by
    intro i
    have hz' := hz i
    have hk' := hk i
    have hf' := hf i
    have ha' := hact i
    have e : (B *ᵥ (d - d')) i = (v + B *ᵥ d) i - (v + B *ᵥ d') i := by
      rw [mulVec_sub]; simp only [Pi.sub_apply, Pi.add_apply]; ring
    rw [e, Pi.sub_apply]
    generalize (v + B *ᵥ d) i = a at *
    generalize (v + B *ᵥ d') i = b at *
    obtain ⟨⟨k1, k2⟩, k3, k4⟩ := hk'
    obtain ⟨⟨z1, z2⟩, z3, z4⟩ := hz'
    have t1 : 0 ≤ (a - b) * y i := by
      rcases lt_trichotomy (y i) 0 with h | h | h
      · rw [k4 h]; nlinarith [hf'.1]
      · rw [h, mul_zero]
      · rw [k3 h]; nlinarith [hf'.2]
    have t2 : (a - b) * ys i ≤ 0 := by
      rcases lt_trichotomy (ys i) 0 with h | h | h
      · rw [ha' (Or.inl (z4 h)), z4 h]; nlinarith
      · rw [h, mul_zero]
      · rw [ha' (Or.inr (z3 h)), z3 h]; nlinarith
    linarith [mul_sub (a - b) (y i) (ys i)]
  have hsum : 0 ≤ (d - d') ⬝ᵥ Bᵀ *ᵥ (y - ys) := by
    rw [mulVec_transpose, dotProduct_comm, ← dotProduct_mulVec, dotProduct_comm]
    exact Finset.sum_nonneg fun i _ => hi i
  have e : Bᵀ *ᵥ (y - ys) = s - H *ᵥ d' - H *ᵥ (d - d') := by
    rw [← hst, mulVec_sub H d d']; abel
  rw [e, dotProduct_sub] at hsum
  linarith

/-- There is a positive number below all positive entries of a finite family. -/
theorem exists_margin (P : ι → Prop) (g : ι → ℝ) (hg : ∀ i, ¬ P i → 0 < g i) : ∃ c > 0, ∀ i, ¬ P i → c ≤ g i := by
  classical
  by_cases h : (Finset.univ.filter fun i => ¬ P i).Nonempty
  · obtain ⟨i, hi, hm⟩ := Finset.exists_min_image _ g h
    exact ⟨g i, hg i (Finset.mem_filter.1 hi).2, fun j hj => hm j (Finset.mem_filter.2 ⟨Finset.mem_univ _, hj⟩)⟩
  · refine ⟨1, one_pos, fun i hi => absurd ⟨i, Finset.mem_filter.2 ⟨Finset.mem_univ _, hi⟩⟩ h⟩

theorem exists_entry_bound {κ : Type*} [Fintype κ] (A : Matrix ι κ ℝ) : ∃ b > 0, ∀ i j, |A i j| ≤ b := by
  refine ⟨1 + ∑ i, ∑ j, |A i j|, ?_, fun i j => ?_⟩
  · have : 0 ≤ ∑ i, ∑ j, |A i j| := Finset.sum_nonneg fun _ _ => Finset.sum_nonneg fun _ _ => abs_nonneg _
    linarith
  · have h1 := Finset.single_le_sum (f := fun j => |A i j|) (fun _ _ => abs_nonneg _) (Finset.mem_univ j)
    have h2 := Finset.single_le_sum (f := fun i => ∑ j, |A i j|) (fun _ _ => Finset.sum_nonneg fun _ _ => abs_nonneg _) (Finset.mem_univ i)
    linarith

/-- Stability of the optimality conditions. `z` with multipliers `ys` satisfies the conditions for the bounds; the gradients `B0` of the active rows are independent and `W` is
positive definite. Then the perturbed conditions with nearby `H`, `B` and small `s`, `ρ` are feasible, and their solutions are bounded by the size of the perturbations `s` and `ρ`. -/
theorem regular {W : Matrix (Fin n) (Fin n) ℝ} {B0 : Matrix ι (Fin n) ℝ} {lo up z ys : ι → ℝ} (hW : ∀ v, v ≠ 0 → 0 < v ⬝ᵥ W *ᵥ v)
    (hz : QP.InNormalCone lo up z ys) (hli : LinearIndependent ℝ fun i : {i // z i = lo i ∨ z i = up i} => B0 i) :
    ∃ ε > 0, ∃ C > 0, ∀ (H : Matrix (Fin n) (Fin n) ℝ) (B : Matrix ι (Fin n) ℝ) (ρ : ι → ℝ), (∀ i j, |H i j - W i j| ≤ ε) → (∀ i j, |B i j - B0 i j| ≤ ε) → ‖ρ‖ ≤ ε →
      (∃ d, ∀ i, lo i ≤ (z + ρ + B *ᵥ d) i ∧ (z + ρ + B *ᵥ d) i ≤ up i) ∧
      ∀ (s d : Fin n → ℝ) (y : ι → ℝ), ‖s‖ ≤ ε → H *ᵥ d + Bᵀ *ᵥ (y - ys) = s → QP.InNormalCone lo up (z + ρ + B *ᵥ d) y →
        ‖d‖ ≤ C * (‖s‖ + ‖ρ‖) ∧ ‖y - ys‖ ≤ C * (‖s‖ + ‖ρ‖) := by
  obtain ⟨c, hc, ε1, hε1, hcoer⟩ := coercive_near hW
  obtain ⟨ε2, hε2, L, hL, hind⟩ := independent_near (P := fun i => z i = lo i ∨ z i = up i) hli
  obtain ⟨w, hw, hwb⟩ := exists_entry_bound W
  obtain ⟨b, hb, hbb⟩ := exists_entry_bound B0
  obtain ⟨g, hg, hgap⟩ := exists_margin (fun i => z i = lo i ∨ z i = up i) (fun i => min (z i - lo i) (up i - z i)) fun i hi => by
    have hi' := not_or.1 hi
    have := (hz i).1
    exact lt_min (sub_pos.2 (lt_of_le_of_ne this.1 (Ne.symm hi'.1))) (sub_pos.2 (lt_of_le_of_ne this.2 hi'.2))
  -- constants
  set h' : ℝ := n * (w + 1) with hh'
  set b' : ℝ := n * (b + 1) with hb'
  have hh0 : 0 ≤ h' := by positivity
  have hb0 : 0 ≤ b' := by positivity
  set C1 : ℝ := n / c * (1 + h' * L) + L with hC1
  have hC10 : 0 < C1 := by positivity
  set C2 : ℝ := L * (1 + h' * C1) with hC2
  set e3 : ℝ := g / (2 * (b' * (L + 2 * C1) + 1) + 1) with he3
  have he30 : 0 < e3 := by positivity
  have hsmall : (b' * (L + 2 * C1) + 1) * e3 < g := by
    rw [he3, mul_div_assoc', div_lt_iff₀ (by positivity)]
    have : 0 ≤ b' * (L + 2 * C1) := by positivity
    nlinarith
  refine ⟨min (min ε1 ε2) (min e3 1), by positivity, C1 + C2, by positivity, fun H B ρ hH hB hρ => ?_⟩
  have hH1 : ∀ i j, |H i j - W i j| ≤ ε1 := fun i j => (hH i j).trans ((min_le_left _ _).trans (min_le_left _ _))
  have hB1 : ∀ i j, |B i j - B0 i j| ≤ ε2 := fun i j => (hB i j).trans ((min_le_left _ _).trans (min_le_right _ _))
  have hρ1 : ‖ρ‖ ≤ e3 := hρ.trans ((min_le_right _ _).trans (min_le_left _ _))
  have hHb : ∀ v, ‖H *ᵥ v‖ ≤ h' * ‖v‖ := fun v => by
    have := mulVec_le (A := H) (b := w + 1) (by positivity) (fun i j => ?_) v
    · rwa [Fintype.card_fin] at this
    · have h1 := (hH i j).trans ((min_le_right _ _).trans (min_le_right _ _))
      have h2 := hwb i j
      have h3 := abs_add_le (H i j - W i j) (W i j)
      rw [sub_add_cancel] at h3
      linarith
  have hBb : ∀ v, ‖B *ᵥ v‖ ≤ b' * ‖v‖ := fun v => by
    have := mulVec_le (A := B) (b := b + 1) (by positivity) (fun i j => ?_) v
    · rwa [Fintype.card_fin] at this
    · have h1 := (hB i j).trans ((min_le_right _ _).trans (min_le_right _ _))
      have h2 := hbb i j
      have h3 := abs_add_le (B i j - B0 i j) (B0 i j)
      rw [sub_add_cancel] at h3
      linarith
  obtain ⟨hlow, hright⟩ := hind B hB1
  -- the comparison point
  obtain ⟨d', hd', hdn⟩ := hright (-ρ)
  rw [norm_neg] at hdn
  have hact : ∀ i, z i = lo i ∨ z i = up i → (z + ρ + B *ᵥ d') i = z i := fun i hi => by
    simp only [Pi.add_apply, hd' i hi, Pi.neg_apply]; ring
  have hoff : ∀ d : Fin n → ℝ, ‖d‖ ≤ (L + 2 * C1) * e3 → ∀ i, ¬ (z i = lo i ∨ z i = up i) → lo i < (z + ρ + B *ᵥ d) i ∧ (z + ρ + B *ᵥ d) i < up i := by
    intro d hd i hi
    have h1 := hgap i hi
    have h2 : |ρ i + (B *ᵥ d) i| ≤ e3 + b' * ((L + 2 * C1) * e3) := by
      refine (abs_add_le _ _).trans (add_le_add ((norm_le_pi_norm ρ i).trans hρ1) ((norm_le_pi_norm (B *ᵥ d) i).trans ((hBb d).trans ?_)))
      exact mul_le_mul_of_nonneg_left hd hb0
    have h3 : |ρ i + (B *ᵥ d) i| < g := by
      refine lt_of_le_of_lt h2 (lt_of_eq_of_lt ?_ hsmall)
      ring
    have h4 := abs_lt.1 h3
    have h5 := le_min_iff.1 h1
    simp only [Pi.add_apply]
    constructor <;> linarith [h5.1, h5.2, h4.1, h4.2]
  have hfeas : ∀ i, lo i ≤ (z + ρ + B *ᵥ d') i ∧ (z + ρ + B *ᵥ d') i ≤ up i := by
    intro i
    by_cases hi : z i = lo i ∨ z i = up i
    · rw [hact i hi]; exact (hz i).1
    · have := hoff d' (hdn.trans ?_) i hi
      · exact ⟨this.1.le, this.2.le⟩
      · have := mul_le_mul_of_nonneg_left hρ1 hL.le
        nlinarith
  refine ⟨⟨d', hfeas⟩, fun s d y hs hst hk => ?_⟩
  -- primal estimate
  have hcmp := compare hz hst hk hfeas hact
  have h1 := hcoer H hH1 (d - d')
  have h2 := (le_abs_self _).trans (dot_le (d - d') (s - H *ᵥ d'))
  rw [Fintype.card_fin] at h2
  have h3 : ‖s - H *ᵥ d'‖ ≤ ‖s‖ + h' * (L * ‖ρ‖) :=
    (norm_sub_le _ _).trans (add_le_add_right ((hHb d').trans (mul_le_mul_of_nonneg_left hdn hh0)) _)
  have h4 : ‖d - d'‖ ≤ n / c * (‖s‖ + h' * (L * ‖ρ‖)) := by
    rcases (norm_nonneg (d - d')).eq_or_lt with h0 | hpos
    · rw [← h0]; positivity
    · have h5 : c * ‖d - d'‖ ^ 2 ≤ n * (‖d - d'‖ * (‖s‖ + h' * (L * ‖ρ‖))) :=
        (h1.trans (hcmp.trans h2)).trans (mul_le_mul_of_nonneg_left (mul_le_mul_of_nonneg_left h3 hpos.le) (by positivity))
      rw [div_mul_eq_mul_div, le_div_iff₀ hc]
      refine le_of_mul_le_mul_right ?_ hpos
      linarith
  have hd : ‖d‖ ≤ C1 * (‖s‖ + ‖ρ‖) := by
    have h5 : ‖d‖ ≤ ‖d - d'‖ + ‖d'‖ := by
      have := norm_add_le (d - d') d'
      rwa [sub_add_cancel] at this
    have h6 : (n : ℝ) / c * (‖s‖ + h' * (L * ‖ρ‖)) ≤ n / c * ((1 + h' * L) * (‖s‖ + ‖ρ‖)) := by
      refine mul_le_mul_of_nonneg_left ?_ (by positivity)
      have : 0 ≤ h' * L * ‖s‖ := by positivity
      have := norm_nonneg ρ
      nlinarith
    have h7 : L * ‖ρ‖ ≤ L * (‖s‖ + ‖ρ‖) := mul_le_mul_of_nonneg_left (by linarith [norm_nonneg s]) hL.le
    rw [hC1, add_mul, mul_assoc (n / c : ℝ)]
    linarith
  have hsρ : ‖s‖ + ‖ρ‖ ≤ 2 * e3 := by
    have := hs.trans ((min_le_right _ _).trans (min_le_left _ _))
    linarith
  have hC20 : 0 ≤ C2 := by positivity
  have hsρ0 : 0 ≤ ‖s‖ + ‖ρ‖ := by positivity
  refine ⟨hd.trans (mul_le_mul_of_nonneg_right (by linarith) hsρ0), ?_⟩
  -- multipliers
  have hd2 : ‖d‖ ≤ (L + 2 * C1) * e3 := by
    refine hd.trans ((mul_le_mul_of_nonneg_left hsρ hC10.le).trans ?_)
    have : 0 ≤ L * e3 := by positivity
    linarith
  have hsup : ∀ i, ¬ (z i = lo i ∨ z i = up i) → (y - ys) i = 0 := by
    intro i hi
    have h5 := hoff d hd2 i hi
    have hy : y i = 0 := by
      rcases lt_trichotomy (y i) 0 with h | h | h
      · exact absurd ((hk i).2.2 h) h5.1.ne'
      · exact h
      · exact absurd ((hk i).2.1 h) h5.2.ne
    have hys : ys i = 0 := by
      rcases lt_trichotomy (ys i) 0 with h | h | h
      · exact absurd (Or.inl ((hz i).2.2 h)) hi
      · exact h
      · exact absurd (Or.inr ((hz i).2.1 h)) hi
    rw [Pi.sub_apply, hy, hys, sub_zero]
  have h5 := hlow (y - ys) hsup
  have e : Bᵀ *ᵥ (y - ys) = s - H *ᵥ d := by rw [← hst]; abel
  rw [e] at h5
  have h6 : ‖s - H *ᵥ d‖ ≤ ‖s‖ + h' * (C1 * (‖s‖ + ‖ρ‖)) :=
    (norm_sub_le _ _).trans (add_le_add_right ((hHb d).trans (mul_le_mul_of_nonneg_left hd hh0)) _)
  calc ‖y - ys‖ ≤ L * (‖s‖ + h' * (C1 * (‖s‖ + ‖ρ‖))) := h5.trans (mul_le_mul_of_nonneg_left h6 hL.le)
    _ ≤ L * ((1 + h' * C1) * (‖s‖ + ‖ρ‖)) := by
        refine mul_le_mul_of_nonneg_left ?_ hL.le
        linarith [norm_nonneg ρ]
    _ ≤ _ := by rw [hC2, ← mul_assoc]; exact mul_le_mul_of_nonneg_right (by linarith) hsρ0

end PolyMPC.Spec
