import Verif.Model.QuasiNewton
import Verif.Spec.Norm
import Mathlib.Algebra.Order.BigOperators.Ring.Finset
import Mathlib.Algebra.BigOperators.Field
import Mathlib.LinearAlgebra.Matrix.DotProduct
import Mathlib.Tactic.Linarith
import Mathlib.Tactic.LinearCombination
import Mathlib.Tactic.FieldSimp
import Mathlib.Analysis.SpecialFunctions.Pow.Real
import Mathlib.Data.Fin.VecNotation
import Mathlib.Data.Rat.Defs

/-!
# Properties C17, C18 (BFGS) and C19 (SR1)
-/

set_option linter.unusedSectionVars false

namespace PolyMPC.QuasiNewton
open Matrix PolyMPC.Spec

variable {K : Type*} [Field K] [LinearOrder K] [IsStrictOrderedRing K] {n : ℕ}

/-- Symmetric positive definite. -/
def SPD (B : Matrix (Fin n) (Fin n) K) : Prop := Bᵀ = B ∧ ∀ x, x ≠ 0 → 0 < x ⬝ᵥ B *ᵥ x

theorem SPD.nonneg {B : Matrix (Fin n) (Fin n) K} (h : SPD B) (x : Fin n → K) : 0 ≤ x ⬝ᵥ B *ᵥ x := by
  by_cases hx : x = 0
  · simp [hx]
  · exact (h.2 x hx).le

theorem outer_mulVec (a b x : Fin n → K) (c : K) (i : Fin n) :
    ((Matrix.of fun i j => outer a b i j / c) *ᵥ x) i = a i * (b ⬝ᵥ x) / c := by
  simp only [Matrix.mulVec, dotProduct, outer, Matrix.of_apply]
  rw [Finset.mul_sum, Finset.sum_div]
  exact Finset.sum_congr rfl fun j _ => by ring

theorem neg_outer_mulVec (a b x : Fin n → K) (c : K) (i : Fin n) :
    ((Matrix.of fun i j => -outer a b i j / c) *ᵥ x) i = -(a i * (b ⬝ᵥ x) / c) := by
  simp only [Matrix.mulVec, dotProduct, outer, Matrix.of_apply]
  rw [Finset.mul_sum, Finset.sum_div, ← Finset.sum_neg_distrib]
  exact Finset.sum_congr rfl fun j _ => by ring

/-- The matrix produced when the update is carried out. -/
theorem bfgsUpdate_some {eps : K} {B B' : Matrix (Fin n) (Fin n) K} {s y : Fin n → K}
    (h : bfgsUpdate eps B s y = some B') :
    ∃ r sr, dampedPair (B *ᵥ s) s y = some (r, sr) ∧
      ((sr < eps ∧ B' = B) ∨ (eps ≤ sr ∧ s ⬝ᵥ B *ᵥ s ≠ 0 ∧ sr ≠ 0 ∧
        B' = B + (Matrix.of fun i j => -(outer (B *ᵥ s) (B *ᵥ s) i j) / (s ⬝ᵥ B *ᵥ s))
          + Matrix.of fun i j => outer r r i j / sr)) := by
  simp only [bfgsUpdate, Option.bind_eq_some_iff] at h
  obtain ⟨⟨r, sr⟩, h1, h2⟩ := h
  refine ⟨r, sr, h1, ?_⟩
  simp only at h2
  by_cases h3 : sr < eps
  · rw [if_pos h3] at h2
    exact Or.inl ⟨h3, (Option.some.inj h2).symm⟩
  · rw [if_neg h3] at h2
    by_cases h4 : s ⬝ᵥ B *ᵥ s = 0 ∨ sr = 0
    · rw [if_pos h4] at h2; cases h2
    · rw [if_neg h4] at h2
      push Not at h4
      exact Or.inr ⟨not_lt.mp h3, h4.1, h4.2, (Option.some.inj h2).symm⟩

/-- `r` and `sr` of the damped update: `sr = s·r`; undamped `r = y`; damped `r` is a combination of `y` and `B s` with
`s·r = 0.2 s·Bs`. -/
theorem dampedPair_spec {Bs s y r : Fin n → K} {sr : K} (h : dampedPair Bs s y = some (r, sr)) :
    sr = s ⬝ᵥ r ∧
    (2 / 10 * (s ⬝ᵥ Bs) ≤ s ⬝ᵥ y → r = y) ∧
    (s ⬝ᵥ y < 2 / 10 * (s ⬝ᵥ Bs) → s ⬝ᵥ r = 2 / 10 * (s ⬝ᵥ Bs) ∧
      ∃ theta, theta * (s ⬝ᵥ Bs - s ⬝ᵥ y) = 8 / 10 * (s ⬝ᵥ Bs) ∧ ∀ i, r i = theta * y i + (1 - theta) * Bs i) := by
  unfold dampedPair at h
  simp only at h
  by_cases hd : s ⬝ᵥ y < 2 / 10 * (s ⬝ᵥ Bs)
  · rw [if_pos hd, Option.map_eq_some_iff] at h
    obtain ⟨theta, ht, he⟩ := h
    unfold divide at ht
    by_cases h0 : s ⬝ᵥ Bs - s ⬝ᵥ y = 0
    · rw [if_pos h0] at ht; cases ht
    · rw [if_neg h0] at ht
      have ht' := Option.some.inj ht
      simp only [Prod.mk.injEq] at he
      obtain ⟨hr, hsr⟩ := he
      have hth : theta * (s ⬝ᵥ Bs - s ⬝ᵥ y) = 8 / 10 * (s ⬝ᵥ Bs) := by
        rw [← ht']; field_simp
      have hsr' : s ⬝ᵥ r = theta * (s ⬝ᵥ y) + (1 - theta) * (s ⬝ᵥ Bs) := by
        rw [← hr]
        simp only [dotProduct, Finset.mul_sum, ← Finset.sum_add_distrib]
        exact Finset.sum_congr rfl fun i _ => by ring
      refine ⟨by rw [hsr', ← hsr], fun h => absurd hd (not_lt.mpr h), fun _ => ⟨?_, theta, hth, fun i => ?_⟩⟩
      · rw [hsr']; linear_combination -hth
      · rw [← hr]
  · rw [if_neg hd] at h
    simp only [Option.some.injEq, Prod.mk.injEq] at h
    obtain ⟨rfl, rfl⟩ := h
    exact ⟨rfl, fun _ => rfl, fun h => absurd h hd⟩

/-- Cauchy-Schwarz for the form of `B`, with its equality case. -/
theorem cauchy_schwarz {B : Matrix (Fin n) (Fin n) K} (h : SPD B) {s : Fin n → K} (x : Fin n → K)
    (hs : 0 < s ⬝ᵥ B *ᵥ s) :
    (x ⬝ᵥ B *ᵥ s) * (x ⬝ᵥ B *ᵥ s) ≤ (x ⬝ᵥ B *ᵥ x) * (s ⬝ᵥ B *ᵥ s) ∧
    ((x ⬝ᵥ B *ᵥ s) * (x ⬝ᵥ B *ᵥ s) = (x ⬝ᵥ B *ᵥ x) * (s ⬝ᵥ B *ᵥ s) →
      (s ⬝ᵥ B *ᵥ s) • x = (x ⬝ᵥ B *ᵥ s) • s) := by
  set a := s ⬝ᵥ B *ᵥ s with ha
  set b := x ⬝ᵥ B *ᵥ s with hb
  have hsym : s ⬝ᵥ B *ᵥ x = b := by
    rw [hb, Matrix.dotProduct_mulVec, ← Matrix.mulVec_transpose, h.1, dotProduct_comm]
  have hw : (a • x - b • s) ⬝ᵥ B *ᵥ (a • x - b • s) = a * (a * (x ⬝ᵥ B *ᵥ x) - b * b) := by
    simp only [Matrix.mulVec_sub, Matrix.mulVec_smul, sub_dotProduct, dotProduct_sub, smul_dotProduct, dotProduct_smul,
      smul_eq_mul, ← ha, ← hb, hsym]
    ring
  constructor
  · have h1 := h.nonneg (a • x - b • s)
    rw [hw] at h1
    have := nonneg_of_mul_nonneg_right h1 hs
    linarith
  · intro he
    by_contra hne
    have h1 := h.2 (a • x - b • s) (sub_ne_zero.mpr hne)
    rw [hw, he] at h1
    have : a * (a * (x ⬝ᵥ B *ᵥ x) - (x ⬝ᵥ B *ᵥ x) * a) = 0 := by ring
    linarith

/-- The quadratic form of the updated matrix. -/
theorem form_update (B : Matrix (Fin n) (Fin n) K) (s r x : Fin n → K) (sr : K) :
    x ⬝ᵥ (B + (Matrix.of fun i j => -(outer (B *ᵥ s) (B *ᵥ s) i j) / (s ⬝ᵥ B *ᵥ s))
          + Matrix.of fun i j => outer r r i j / sr) *ᵥ x =
      x ⬝ᵥ B *ᵥ x - (x ⬝ᵥ B *ᵥ s) * (x ⬝ᵥ B *ᵥ s) / (s ⬝ᵥ B *ᵥ s) + (x ⬝ᵥ r) * (x ⬝ᵥ r) / sr := by
  rw [Matrix.add_mulVec, Matrix.add_mulVec, dotProduct_add, dotProduct_add]
  have e1 : x ⬝ᵥ ((Matrix.of fun i j => -(outer (B *ᵥ s) (B *ᵥ s) i j) / (s ⬝ᵥ B *ᵥ s)) *ᵥ x) =
      -((x ⬝ᵥ B *ᵥ s) * (x ⬝ᵥ B *ᵥ s) / (s ⬝ᵥ B *ᵥ s)) := by
    have : ∀ i, x i * ((Matrix.of fun i j => -(outer (B *ᵥ s) (B *ᵥ s) i j) / (s ⬝ᵥ B *ᵥ s)) *ᵥ x) i =
        x i * (B *ᵥ s) i * (-((x ⬝ᵥ B *ᵥ s) / (s ⬝ᵥ B *ᵥ s))) := by
      intro i
      rw [neg_outer_mulVec, dotProduct_comm (B *ᵥ s) x]
      ring
    rw [dotProduct, Finset.sum_congr rfl fun i _ => this i, ← Finset.sum_mul]
    change (x ⬝ᵥ B *ᵥ s) * _ = _
    ring
  have e2 : x ⬝ᵥ ((Matrix.of fun i j => outer r r i j / sr) *ᵥ x) = (x ⬝ᵥ r) * (x ⬝ᵥ r) / sr := by
    have : ∀ i, x i * ((Matrix.of fun i j => outer r r i j / sr) *ᵥ x) i = x i * r i * ((x ⬝ᵥ r) / sr) := by
      intro i
      rw [outer_mulVec, dotProduct_comm r x]
      ring
    rw [dotProduct, Finset.sum_congr rfl fun i _ => this i, ← Finset.sum_mul]
    change (x ⬝ᵥ r) * _ = _
    ring
  rw [e1, e2]
  ring

theorem symm_update {B : Matrix (Fin n) (Fin n) K} (hB : Bᵀ = B) (a r : Fin n → K) (c d : K) :
    (B + (Matrix.of fun i j => -(outer a a i j) / c) + Matrix.of fun i j => outer r r i j / d)ᵀ =
      B + (Matrix.of fun i j => -(outer a a i j) / c) + Matrix.of fun i j => outer r r i j / d := by
  ext i j
  have : B j i = B i j := congrFun (congrFun hB i) j
  simp only [Matrix.transpose_apply, Matrix.add_apply, Matrix.of_apply, outer, this]
  ring

/-! ## C17 -/

/-- C17, one update: on a symmetric positive definite matrix no division by zero happens, and the result is symmetric
positive definite. There is no condition on `s` and `y`. -/
theorem bfgs_keeps_spd {eps : K} (heps : 0 < eps) {B : Matrix (Fin n) (Fin n) K} (hB : SPD B) (s y : Fin n → K) :
    ∃ B', bfgsUpdate eps B s y = some B' ∧ SPD B' := by
  have hnn := hB.nonneg s
  have hdef : ∃ p, dampedPair (B *ᵥ s) s y = some p := by
    unfold dampedPair
    simp only
    by_cases hd : s ⬝ᵥ y < 2 / 10 * (s ⬝ᵥ B *ᵥ s)
    · rw [if_pos hd]
      have h0 : s ⬝ᵥ B *ᵥ s - s ⬝ᵥ y ≠ 0 := by
        have : 0 < s ⬝ᵥ B *ᵥ s - s ⬝ᵥ y := by linarith
        exact this.ne'
      unfold divide
      rw [if_neg h0]
      exact ⟨_, rfl⟩
    · rw [if_neg hd]; exact ⟨_, rfl⟩
  obtain ⟨⟨r, sr⟩, hp⟩ := hdef
  have hsp := dampedPair_spec hp
  by_cases h1 : sr < eps
  · refine ⟨B, ?_, hB⟩
    simp only [bfgsUpdate, hp, Option.bind_some, if_pos h1]
  · have hsr : 0 < sr := lt_of_lt_of_le heps (not_lt.mp h1)
    have hs0 : s ≠ 0 := by
      rintro rfl
      rw [zero_dotProduct] at hsp
      linarith [hsp.1]
    have hsBs := hB.2 s hs0
    have h2 : ¬ (s ⬝ᵥ B *ᵥ s = 0 ∨ sr = 0) := by
      rintro (h | h)
      · exact hsBs.ne' h
      · exact hsr.ne' h
    have hres : bfgsUpdate eps B s y = some (B + (Matrix.of fun i j => -(outer (B *ᵥ s) (B *ᵥ s) i j) / (s ⬝ᵥ B *ᵥ s))
          + Matrix.of fun i j => outer r r i j / sr) := by
      simp only [bfgsUpdate, hp, Option.bind_some, if_neg h1, if_neg h2]
    refine ⟨_, hres, symm_update hB.1 _ _ _ _, ?_⟩
    intro x hx
    rw [form_update]
    obtain ⟨c1, c2⟩ := cauchy_schwarz hB x hsBs
    have hA : (x ⬝ᵥ B *ᵥ s) * (x ⬝ᵥ B *ᵥ s) / (s ⬝ᵥ B *ᵥ s) ≤ x ⬝ᵥ B *ᵥ x := by
      rw [div_le_iff₀ hsBs]; exact c1
    have hR : 0 ≤ (x ⬝ᵥ r) * (x ⬝ᵥ r) / sr := div_nonneg (mul_self_nonneg _) hsr.le
    rcases hA.lt_or_eq with hlt | heq
    · linarith
    · have he : (s ⬝ᵥ B *ᵥ s) • x = (x ⬝ᵥ B *ᵥ s) • s := c2 (by rw [← heq]; field_simp)
      have hxr : (s ⬝ᵥ B *ᵥ s) * (x ⬝ᵥ r) = (x ⬝ᵥ B *ᵥ s) * sr := by
        have := congrArg (fun v => v ⬝ᵥ r) he
        simp only [smul_dotProduct, smul_eq_mul] at this
        rw [this, hsp.1]
      have hbne : x ⬝ᵥ B *ᵥ s ≠ 0 := by
        intro h0
        rw [h0, zero_smul] at he
        rcases smul_eq_zero.mp he with h | h
        · exact hsBs.ne' h
        · exact hx h
      have hxr0 : x ⬝ᵥ r ≠ 0 := by
        intro h0
        rw [h0, mul_zero] at hxr
        rcases mul_eq_zero.mp hxr.symm with h | h
        · exact hbne h
        · exact hsr.ne' h
      have : 0 < (x ⬝ᵥ r) * (x ⬝ᵥ r) / sr := div_pos (mul_self_pos.mpr hxr0) hsr
      linarith

/-- C17. After any history of `BFGS_update` calls, with any step and gradient-change vectors, the matrix is symmetric
positive definite. -/
theorem bfgs_history_spd {eps : K} (heps : 0 < eps) (hist : List ((Fin n → K) × (Fin n → K)))
    {B : Matrix (Fin n) (Fin n) K} (hB : SPD B) : ∃ B', bfgsRun eps B hist = some B' ∧ SPD B' := by
  induction hist generalizing B with
  | nil => exact ⟨B, rfl, hB⟩
  | cons p rest ih =>
    obtain ⟨s, y⟩ := p
    obtain ⟨B1, h1, h2⟩ := bfgs_keeps_spd heps hB s y
    obtain ⟨B2, h3, h4⟩ := ih h2
    exact ⟨B2, by simp only [bfgsRun, h1, Option.bind_some, h3], h4⟩

/-- The identity matrix, the usual starting point, is symmetric positive definite. -/
theorem spd_one : SPD (1 : Matrix (Fin n) (Fin n) K) := by
  refine ⟨Matrix.transpose_one, fun x hx => ?_⟩
  rw [Matrix.one_mulVec]
  obtain ⟨i, hi⟩ := Function.ne_iff.mp hx
  exact Finset.sum_pos' (fun j _ => mul_self_nonneg _) ⟨i, Finset.mem_univ i, mul_self_pos.mpr hi⟩

/-! ## C18 -/

/-- The curvature along the step that the damped update aims for. -/
def targetCurvature (B : Matrix (Fin n) (Fin n) K) (s y : Fin n → K) : K :=
  if s ⬝ᵥ y < 2 / 10 * (s ⬝ᵥ B *ᵥ s) then 2 / 10 * (s ⬝ᵥ B *ᵥ s) else s ⬝ᵥ y

/-- C18. If the target curvature is below `eps` the matrix is left unchanged. Otherwise the new matrix maps `s` to `y` when
`s·y ≥ 0.2 s·Bs`, and else to `theta y + (1 - theta) B s` with the `theta` for which `s·B⁺s = 0.2 s·Bs`. -/
theorem bfgs_secant {eps : K} {B B' : Matrix (Fin n) (Fin n) K} {s y : Fin n → K}
    (h : bfgsUpdate eps B s y = some B') :
    (targetCurvature B s y < eps → B' = B) ∧
    (eps ≤ targetCurvature B s y →
     (2 / 10 * (s ⬝ᵥ B *ᵥ s) ≤ s ⬝ᵥ y → B' *ᵥ s = y) ∧
     (s ⬝ᵥ y < 2 / 10 * (s ⬝ᵥ B *ᵥ s) → s ⬝ᵥ B' *ᵥ s = 2 / 10 * (s ⬝ᵥ B *ᵥ s) ∧
        ∃ theta, theta * (s ⬝ᵥ B *ᵥ s - s ⬝ᵥ y) = 8 / 10 * (s ⬝ᵥ B *ᵥ s) ∧
          ∀ i, (B' *ᵥ s) i = theta * y i + (1 - theta) * (B *ᵥ s) i)) := by
  obtain ⟨r, sr, hp, hcase⟩ := bfgsUpdate_some h
  obtain ⟨e1, e2, e3⟩ := dampedPair_spec hp
  have hv : sr = targetCurvature B s y := by
    unfold targetCurvature
    split_ifs with hc
    · rw [e1]; exact (e3 hc).1
    · rw [e1, e2 (not_lt.mp hc)]
  rw [← hv]
  rcases hcase with ⟨hlt, rfl⟩ | ⟨hge, h1, h2, rfl⟩
  · exact ⟨fun _ => rfl, fun hge => absurd hlt (not_lt.mpr hge)⟩
  · refine ⟨fun hlt => absurd hlt (not_lt.mpr hge), fun _ => ?_⟩
    set B' := B + (Matrix.of fun i j => -(outer (B *ᵥ s) (B *ᵥ s) i j) / (s ⬝ᵥ B *ᵥ s))
          + Matrix.of fun i j => outer r r i j / sr with hB'
    have hBs : B' *ᵥ s = r := by
      funext i
      rw [hB', Matrix.add_mulVec, Matrix.add_mulVec, Pi.add_apply, Pi.add_apply, neg_outer_mulVec, outer_mulVec,
        dotProduct_comm (B *ᵥ s) s, dotProduct_comm r s, ← e1]
      field_simp
      ring
    refine ⟨fun hge => by rw [hBs, e2 hge], fun hlt => ?_⟩
    obtain ⟨a1, theta, a2, a3⟩ := e3 hlt
    exact ⟨by rw [hBs, a1], theta, a2, fun i => by rw [hBs, a3]⟩

/-- C18. On a symmetric positive definite matrix the damping keeps the curvature along the step: `s·B⁺s ≥ 0.2 s·Bs`. -/
theorem bfgs_curvature {eps : K} {B B' : Matrix (Fin n) (Fin n) K} (hB : SPD B) {s y : Fin n → K}
    (h : bfgsUpdate eps B s y = some B') : 2 / 10 * (s ⬝ᵥ B *ᵥ s) ≤ s ⬝ᵥ B' *ᵥ s := by
  have hnn := hB.nonneg s
  obtain ⟨h0, h3⟩ := bfgs_secant h
  rcases lt_or_ge (targetCurvature B s y) eps with hc | hc
  · rw [h0 hc]; linarith
  · obtain ⟨h1, h2⟩ := h3 hc
    rcases le_or_gt (2 / 10 * (s ⬝ᵥ B *ᵥ s)) (s ⬝ᵥ y) with hc | hc
    · rw [h1 hc]; exact hc
    · exact (h2 hc).1.ge

/-- C18. The damping factor is in `[0, 1]`. -/
theorem theta_range {B : Matrix (Fin n) (Fin n) K} (hB : SPD B) {s y : Fin n → K} {theta : K}
    (hlt : s ⬝ᵥ y < 2 / 10 * (s ⬝ᵥ B *ᵥ s))
    (ht : theta * (s ⬝ᵥ B *ᵥ s - s ⬝ᵥ y) = 8 / 10 * (s ⬝ᵥ B *ᵥ s)) : 0 ≤ theta ∧ theta ≤ 1 := by
  have hnn := hB.nonneg s
  have hpos : 0 < s ⬝ᵥ B *ᵥ s - s ⬝ᵥ y := by linarith
  constructor
  · by_contra h
    have := mul_neg_of_neg_of_pos (not_le.mp h) hpos
    linarith
  · by_contra h
    have h1 := mul_lt_mul_of_pos_right (not_le.mp h) hpos
    linarith

/-! ## C19 -/

theorem dot_self_eq_zero {v : Fin n → K} : v ⬝ᵥ v = 0 ↔ v = 0 := by
  constructor
  · intro h
    funext i
    have := (Finset.sum_eq_zero_iff_of_nonneg (fun j _ => mul_self_nonneg (v j))).mp h i (Finset.mem_univ i)
    exact mul_self_eq_zero.mp this
  · rintro rfl; simp

theorem norm2_spec {sq : K → K} (hsq : IsSqrt sq) (v : Fin n → K) :
    0 ≤ norm2 sq v ∧ (norm2 sq v = 0 ↔ v = 0) := by
  have hnn : 0 ≤ v ⬝ᵥ v := Finset.sum_nonneg fun i _ => mul_self_nonneg _
  obtain ⟨h1, h2⟩ := hsq _ hnn
  refine ⟨h1, ?_⟩
  unfold norm2
  constructor
  · intro h; rw [h, mul_zero] at h2; exact dot_self_eq_zero.mp h2.symm
  · intro h
    rw [dot_self_eq_zero.mpr h] at h2 ⊢
    exact mul_self_eq_zero.mp h2

/-- C19. SR1 keeps symmetry, and either leaves the matrix unchanged (exactly when the guard rejects) or satisfies the
secant equation. -/
theorem sr1_spec {sq : K → K} {B B' : Matrix (Fin n) (Fin n) K} {s y : Fin n → K}
    (h : sr1Update sq B s y = some B') :
    (Bᵀ = B → B'ᵀ = B') ∧
    (|(y - B *ᵥ s) ⬝ᵥ s| < 1 / 1000000 * norm2 sq s * norm2 sq (y - B *ᵥ s) → B' = B) ∧
    (1 / 1000000 * norm2 sq s * norm2 sq (y - B *ᵥ s) ≤ |(y - B *ᵥ s) ⬝ᵥ s| → B' *ᵥ s = y) := by
  unfold sr1Update at h
  simp only [ge_iff_le] at h
  by_cases hg : 1 / 1000000 * norm2 sq s * norm2 sq (y - B *ᵥ s) ≤ |(y - B *ᵥ s) ⬝ᵥ s|
  · rw [if_pos hg] at h
    by_cases h0 : (y - B *ᵥ s) ⬝ᵥ s = 0
    · rw [if_pos h0] at h; cases h
    · rw [if_neg h0] at h
      have h' := (Option.some.inj h).symm
      refine ⟨fun hB => ?_, fun hlt => absurd hlt (not_lt.mpr hg), fun _ => ?_⟩
      · rw [h']
        ext i j
        have : B j i = B i j := congrFun (congrFun hB i) j
        simp only [Matrix.transpose_apply, Matrix.add_apply, Matrix.of_apply, outer, this]
        ring
      · rw [h']
        funext i
        rw [Matrix.add_mulVec, Pi.add_apply, outer_mulVec, mul_div_assoc, div_self h0]
        simp
  · rw [if_neg hg] at h
    have h' := (Option.some.inj h).symm
    exact ⟨fun hB => by rw [h', hB], fun _ => h', fun hge => absurd hge hg⟩

/-- C19. The update divides by zero exactly when the step is zero or the secant equation already holds: the guard lets
these cases through. -/
theorem sr1_undefined_iff {sq : K → K} (hsq : IsSqrt sq) (B : Matrix (Fin n) (Fin n) K) (s y : Fin n → K) :
    sr1Update sq B s y = none ↔ (s = 0 ∨ B *ᵥ s = y) := by
  unfold sr1Update
  simp only [ge_iff_le]
  obtain ⟨n1, n2⟩ := norm2_spec hsq s
  obtain ⟨m1, m2⟩ := norm2_spec hsq (y - B *ᵥ s)
  constructor
  · intro h
    by_cases hg : 1 / 1000000 * norm2 sq s * norm2 sq (y - B *ᵥ s) ≤ |(y - B *ᵥ s) ⬝ᵥ s|
    · rw [if_pos hg] at h
      by_cases h0 : (y - B *ᵥ s) ⬝ᵥ s = 0
      · rw [h0, abs_zero] at hg
        have hz : norm2 sq s * norm2 sq (y - B *ᵥ s) = 0 := by
          have := mul_nonneg n1 m1
          nlinarith
        rcases mul_eq_zero.mp hz with h1 | h1
        · exact Or.inl (n2.mp h1)
        · exact Or.inr (sub_eq_zero.mp (m2.mp h1)).symm
      · rw [if_neg h0] at h; cases h
    · rw [if_neg hg] at h; cases h
  · rintro (h | h)
    · have e : norm2 sq s = 0 := n2.mpr h
      rw [e, h]
      simp
    · have e : norm2 sq (y - B *ᵥ s) = 0 := m2.mpr (sub_eq_zero.mpr h.symm)
      rw [e, h]
      simp

/-! ## Non-vacuity -/

/-- A damped BFGS update of the identity that is carried out. -/
example : ((bfgsUpdate (1 / 10 : ℚ) (1 : Matrix (Fin 1) (Fin 1) ℚ) (fun _ => 1) (fun _ => -1)).map fun B => B 0 0) =
    some (1 / 5) := by decide +kernel

/-- An undamped update in two dimensions. -/
example : ((bfgsUpdate (1 / 10 : ℚ) (1 : Matrix (Fin 2) (Fin 2) ℚ) ![1, 0] ![2, 1]).map fun B =>
    (B 0 0, B 0 1, B 1 0, B 1 1)) = some (2, 1, 1, 3 / 2) := by decide +kernel

/-- SR1 carried out: the guard compares `|scaling| = 2` with `1e-6 * 1 * 2`. -/
example : ((sr1Update Real.sqrt (1 : Matrix (Fin 1) (Fin 1) ℝ) (fun _ => 1) (fun _ => 3))) ≠ none := by
  rw [Ne, sr1_undefined_iff (fun a ha => ⟨Real.sqrt_nonneg a, Real.mul_self_sqrt ha⟩)]
  rintro (h | h)
  · exact one_ne_zero (congrFun h 0)
  · have := congrFun h 0
    rw [Matrix.one_mulVec] at this
    norm_num at this

/-- SR1 rejected: `s` and `v` are orthogonal, so the matrix is kept. -/
example : sr1Update Real.sqrt (1 : Matrix (Fin 2) (Fin 2) ℝ) ![1, 0] ![1, 1] = some 1 := by
  have hv : (![1, 1] - (1 : Matrix (Fin 2) (Fin 2) ℝ) *ᵥ ![1, 0]) = ![0, 1] := by
    funext i; fin_cases i <;> simp
  simp only [sr1Update, hv, norm2]
  rw [if_neg]
  norm_num

/-- The real square root satisfies the assumption made on `sq`. -/
example : IsSqrt Real.sqrt := fun a ha => ⟨Real.sqrt_nonneg a, Real.mul_self_sqrt ha⟩

end PolyMPC.QuasiNewton
