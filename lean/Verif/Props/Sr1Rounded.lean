import Mathlib.Analysis.SpecialFunctions.Sqrt
import Mathlib.Analysis.InnerProductSpace.Basic
import Verif.Model.Sr1Rounded
import Verif.Props.BfgsRounded

/-!
# Property C242: the SR1 update in floating-point arithmetic

* symmetry is kept exactly;
* the guard bounds the amplification of rounding errors, so that the secant equation holds up to an explicit multiple of
  the rounding unit;
* the update divides by zero exactly if the step is zero or the computed product `B s` equals `y`.
-/

set_option linter.unusedSectionVars false

namespace PolyMPC.BfgsR
open Matrix PolyMPC.Rounding

variable {n : ℕ} {ar : Arith}

/-- Without rounding this is the model of C19. -/
theorem sr1Update_exact (sq : ℝ → ℝ) (B : Matrix (Fin n) (Fin n) ℝ) (s y : Fin n → ℝ) :
    sr1Update (Arith.exact sq) B s y = QuasiNewton.sr1Update sq B s y := by
  by_cases h : 1 / 1000000 * QuasiNewton.norm2 sq s * QuasiNewton.norm2 sq (y - B *ᵥ s) ≤ |(y - B *ᵥ s) ⬝ᵥ s|
  · by_cases h0 : (y - B *ᵥ s) ⬝ᵥ s = 0
    · exact ((if_pos h).trans (if_pos h0)).trans ((if_pos h).trans (if_pos h0)).symm
    · refine ((if_pos h).trans (if_neg h0)).trans (((if_pos h).trans (if_neg h0)).trans ?_).symm
      rfl
  · exact (if_neg h).trans (if_neg h).symm

/-- What an update does: nothing, if the guard fails, or the formula with the computed vector. -/
theorem sr1_cases {B B' : Matrix (Fin n) (Fin n) ℝ} {s y : Fin n → ℝ} (h : sr1Update ar B s y = some B') :
    (B' = B ∧ |ar.dot n (sr1Vec ar B s y) s| <
        ar.mul (ar.mul (ar.lit (1 / 1000000)) (norm2 ar s)) (norm2 ar (sr1Vec ar B s y))) ∨
      (ar.mul (ar.mul (ar.lit (1 / 1000000)) (norm2 ar s)) (norm2 ar (sr1Vec ar B s y)) ≤
        |ar.dot n (sr1Vec ar B s y) s| ∧ ar.dot n (sr1Vec ar B s y) s ≠ 0 ∧
      ∀ i j, B' i j = ar.add (B i j) (ar.div (ar.mul (sr1Vec ar B s y i) (sr1Vec ar B s y j))
        (ar.dot n (sr1Vec ar B s y) s))) := by
  unfold sr1Update at h
  simp only [ge_iff_le] at h
  by_cases h1 : ar.mul (ar.mul (ar.lit (1 / 1000000)) (norm2 ar s)) (norm2 ar (sr1Vec ar B s y)) ≤
      |ar.dot n (sr1Vec ar B s y) s|
  · rw [if_pos h1] at h
    by_cases h2 : ar.dot n (sr1Vec ar B s y) s = 0
    · rw [if_pos h2] at h; cases h
    · rw [if_neg h2] at h
      cases h
      exact Or.inr ⟨h1, h2, fun _ _ => rfl⟩
  · rw [if_neg h1] at h
    cases h
    exact Or.inl ⟨rfl, not_le.mp h1⟩

/-- C242. If multiplication commutes, any history of updates keeps a symmetric matrix exactly symmetric. -/
theorem sr1_symm (hm : ∀ a b, ar.mul a b = ar.mul b a) {B B' : Matrix (Fin n) (Fin n) ℝ} (hB : Bᵀ = B)
    (l : List ((Fin n → ℝ) × (Fin n → ℝ))) (h : sr1Run ar B l = some B') : B'ᵀ = B' := by
  induction l generalizing B with
  | nil => cases h; exact hB
  | cons p l ih =>
    obtain ⟨s, y⟩ := p
    simp only [sr1Run] at h
    cases h1 : sr1Update ar B s y with
    | none => rw [h1] at h; cases h
    | some C =>
      rw [h1] at h
      refine ih ?_ h
      rcases sr1_cases h1 with ⟨rfl, _⟩ | ⟨_, _, he⟩
      · exact hB
      · ext i j
        have hij : B j i = B i j := congrFun (congrFun hB i) j
        rw [Matrix.transpose_apply, he, he, hij, hm (sr1Vec ar B s y j)]

/-- The computed norm is not much smaller than the norm. -/
theorem norm2_lower {ε : ℝ} {g : ℕ → ℝ} (hu : Accurate ar ε g) (hg : g n < 2)
    (hq : ∀ a, 0 ≤ a → |ar.sqrt a - Real.sqrt a| ≤ ε * Real.sqrt a) (v : Fin n → ℝ) :
    (1 - ε) * Real.sqrt (2 - g n) * Real.sqrt (∑ i, v i ^ 2) ≤ norm2 ar v := by
  have h1 := (abs_le.mp (hu.dot n v v)).1
  have e1 : ∑ i, |v i * v i| = ∑ i, v i ^ 2 :=
    Finset.sum_congr rfl fun i _ => by rw [abs_mul_self, pow_two]
  have e2 : v ⬝ᵥ v = ∑ i, v i ^ 2 := Finset.sum_congr rfl fun i _ => (pow_two _).symm
  rw [e1, e2] at h1
  have hs : 0 ≤ ∑ i, v i ^ 2 := Finset.sum_nonneg fun i _ => sq_nonneg _
  have h2 : (2 - g n) * ∑ i, v i ^ 2 ≤ ar.dot n v v := by linarith
  have h0 : 0 ≤ (2 - g n) * ∑ i, v i ^ 2 := mul_nonneg (by linarith) hs
  have h3 := (abs_le.mp (hq _ (h0.trans h2))).1
  have h4 : Real.sqrt (2 - g n) * Real.sqrt (∑ i, v i ^ 2) ≤ Real.sqrt (ar.dot n v v) := by
    rw [← Real.sqrt_mul (by linarith)]
    exact Real.sqrt_le_sqrt h2
  have h5 := mul_le_mul_of_nonneg_left h4 (by linarith [hu.eps1] : 0 ≤ 1 - ε)
  unfold norm2
  linarith

/-- A product of nonnegative numbers with the first rounded below. -/
theorem mul_lower {ε : ℝ} {g : ℕ → ℝ} (hu : Accurate ar ε g) {a b a' b' : ℝ} (ha' : 0 ≤ a') (hb' : 0 ≤ b') (ha : a' ≤ a)
    (hb : b' ≤ b) : (1 - ε) * (a' * b') ≤ ar.mul a b := by
  have h1 := (abs_le.mp (hu.mul a b)).1
  have h2 : a' * b' ≤ a * b := mul_le_mul ha hb hb' (ha'.trans ha)
  rw [abs_of_nonneg ((mul_nonneg ha' hb').trans h2)] at h1
  have h3 := mul_le_mul_of_nonneg_left h2 (by linarith [hu.eps1] : 0 ≤ 1 - ε)
  linarith

/-- The right hand side of the guard is at least a multiple of the product of the norms. -/
theorem guard_lower {ε : ℝ} {g : ℕ → ℝ} (hu : Accurate ar ε g) (hg : g n < 2)
    (hq : ∀ a, 0 ≤ a → |ar.sqrt a - Real.sqrt a| ≤ ε * Real.sqrt a) (s v : Fin n → ℝ) :
    (1 - ε) ^ 5 * (2 - g n) / 1000000 * (Real.sqrt (∑ i, v i ^ 2) * Real.sqrt (∑ i, s i ^ 2)) ≤
      ar.mul (ar.mul (ar.lit (1 / 1000000)) (norm2 ar s)) (norm2 ar v) := by
  have he : 0 ≤ 1 - ε := by linarith [hu.eps1]
  have hl : (1 - ε) * (1 / 1000000) ≤ ar.lit (1 / 1000000) := by
    have := (abs_le.mp (hu.lit (1 / 1000000))).1
    rw [abs_of_pos (by norm_num : (0 : ℝ) < 1 / 1000000)] at this
    linarith
  have hp : ∀ w : Fin n → ℝ, 0 ≤ (1 - ε) * Real.sqrt (2 - g n) * Real.sqrt (∑ i, w i ^ 2) := fun w => by positivity
  have h1 := mul_lower hu (by positivity) (hp s) hl (norm2_lower hu hg hq s)
  have h2 := mul_lower hu (mul_nonneg he (mul_nonneg (by positivity) (hp s))) (hp v) h1 (norm2_lower hu hg hq v)
  refine le_trans (le_of_eq ?_) h2
  have hr : Real.sqrt (2 - g n) * Real.sqrt (2 - g n) = 2 - g n := Real.mul_self_sqrt (by linarith)
  calc (1 - ε) ^ 5 * (2 - g n) / 1000000 * (Real.sqrt (∑ i, v i ^ 2) * Real.sqrt (∑ i, s i ^ 2))
      = (1 - ε) ^ 5 * (Real.sqrt (2 - g n) * Real.sqrt (2 - g n)) / 1000000 *
        (Real.sqrt (∑ i, v i ^ 2) * Real.sqrt (∑ i, s i ^ 2)) := by rw [hr]
    _ = _ := by ring

/-- The factor by which the guard lets rounding errors grow: a million, up to rounding. -/
noncomputable def sr1Kappa (ε γ : ℝ) : ℝ := 1000000 / ((1 - ε) ^ 5 * (2 - γ))

/-- What the guard is worth: the terms of the scalar product are bounded by its computed value. -/
theorem sr1_guard {ε : ℝ} {g : ℕ → ℝ} (hu : Accurate ar ε g) (hg : g n < 2)
    (hq : ∀ a, 0 ≤ a → |ar.sqrt a - Real.sqrt a| ≤ ε * Real.sqrt a) {s v : Fin n → ℝ} {c : ℝ}
    (h : ar.mul (ar.mul (ar.lit (1 / 1000000)) (norm2 ar s)) (norm2 ar v) ≤ |c|) :
    ∑ i, |v i * s i| ≤ sr1Kappa ε (g n) * |c| := by
  have h1 := (guard_lower hu hg hq s v).trans h
  have hpos : 0 < (1 - ε) ^ 5 * (2 - g n) :=
    mul_pos (pow_pos (by linarith [hu.eps1]) 5) (by linarith)
  have cs : ∑ i, |v i * s i| ≤ Real.sqrt (∑ i, v i ^ 2) * Real.sqrt (∑ i, s i ^ 2) := by
    have := Real.sum_mul_le_sqrt_mul_sqrt Finset.univ (fun i => |v i|) (fun i => |s i|)
    simpa only [abs_mul, sq_abs] using this
  have h2 : (1 - ε) ^ 5 * (2 - g n) / 1000000 * ∑ i, |v i * s i| ≤ |c| :=
    (mul_le_mul_of_nonneg_left cs (by positivity)).trans h1
  unfold sr1Kappa
  rw [div_mul_eq_mul_div, le_div_iff₀ hpos]
  calc (∑ i, |v i * s i|) * ((1 - ε) ^ 5 * (2 - g n))
      = 1000000 * ((1 - ε) ^ 5 * (2 - g n) / 1000000 * ∑ i, |v i * s i|) := by ring
    _ ≤ 1000000 * |c| := by linarith

/-- C242. The secant equation `B' s = y` after an update that is not skipped, up to rounding. With operations accurate to
`ε` and scalar products accurate to `g n`, the error of each equation is at most the rounding unit times a million times the
entry of `y - B s`, plus roundings of the size of `B s` and `y`. -/
theorem sr1_secant_error {ε : ℝ} {g : ℕ → ℝ} (hu : Accurate ar ε g) (hg : g n < 2)
    (hq : ∀ a, 0 ≤ a → |ar.sqrt a - Real.sqrt a| ≤ ε * Real.sqrt a) {B B' : Matrix (Fin n) (Fin n) ℝ} {s y : Fin n → ℝ}
    (h : sr1Update ar B s y = some B') :
    B' = B ∨ ∀ i, |(B' *ᵥ s) i - y i| ≤
      ((1 + ε) ^ 3 - 1 + (g n - 1)) * sr1Kappa ε (g n) * |sr1Vec ar B s y i| +
      ((1 + ε) ^ 3 - 1 + (g n - 1) + ε * g n) * ∑ j, |B i j * s j| + ε * |y i| := by
  rcases sr1_cases h with ⟨rfl, _⟩ | ⟨hgd, hc, he⟩
  · exact Or.inl rfl
  refine Or.inr fun i => ?_
  have hv : sr1Vec ar B s y i = ar.sub (y i) (ar.dot n (B i) s) := rfl
  set v := sr1Vec ar B s y
  set c := ar.dot n v s with hcdef
  have hS := sr1_guard hu hg hq hgd
  set S := ∑ j, |v j * s j|
  set a := ∑ j, |B i j * s j|
  set d := ar.dot n (B i) s
  have hcp : 0 < |c| := abs_pos.mpr hc
  have he0 := hu.eps0
  have hg1 := hu.g1 n
  -- the entries
  have ent : ∀ j, |B' i j - (B i j + v i * v j / c)| ≤ ((1 + ε) ^ 3 - 1) * (|B i j| + |v i * v j / c|) := by
    intro j
    have h1 : Near (1 + ε) |v i * v j / c| (ar.mul (v i) (v j) / c) (v i * v j / c) := by
      refine ⟨hu.one_le, ?_, le_rfl⟩
      rw [← sub_div, abs_div, abs_div, div_le_iff₀ hcp]
      calc |ar.mul (v i) (v j) - v i * v j| ≤ ε * |v i * v j| := hu.mul _ _
        _ = (1 + ε - 1) * (|v i * v j| / |c|) * |c| := by field_simp; ring
    have h2 := h1.round hu.one_le (r := ar.div (ar.mul (v i) (v j)) c) (T := |ar.mul (v i) (v j) / c|)
      (by have := hu.div (ar.mul (v i) (v j)) c hc; simpa using this) h1.abs_le
    have h2' : Near ((1 + ε) ^ 2) |v i * v j / c| (ar.div (ar.mul (v i) (v j)) c) (v i * v j / c) := by
      rw [pow_two]; exact h2
    have e0 : Near ((1 + ε) ^ 2) |B i j| (B i j) (B i j) := (Near.refl _).mono hu.one_le_sq
    have s1 := (hu.near_add e0 h2').2.1
    have e1 : (1 + ε) * (1 + ε) ^ 2 = (1 + ε) ^ 3 := by ring
    rw [e1] at s1
    rw [he i j]
    exact s1
  have h3 : 0 ≤ (1 + ε) ^ 3 - 1 := by
    have : (1 + ε) ^ 3 - 1 = ε * (3 + 3 * ε + ε ^ 2) := by ring
    rw [this]; positivity
  -- sum of the errors of the entries
  have hsum : ∑ j, |v i * v j / c| * |s j| ≤ |v i| * sr1Kappa ε (g n) := by
    have : ∑ j, |v i * v j / c| * |s j| = |v i| * (S / |c|) := by
      rw [Finset.sum_div, Finset.mul_sum]
      refine Finset.sum_congr rfl fun j _ => ?_
      rw [abs_div, abs_mul, abs_mul]; ring
    rw [this]
    refine mul_le_mul_of_nonneg_left ?_ (abs_nonneg _)
    rwa [div_le_iff₀ hcp]
  have E1 : |∑ j, (B' i j - (B i j + v i * v j / c)) * s j| ≤
      ((1 + ε) ^ 3 - 1) * (a + |v i| * sr1Kappa ε (g n)) := by
    calc |∑ j, (B' i j - (B i j + v i * v j / c)) * s j|
        ≤ ∑ j, |(B' i j - (B i j + v i * v j / c)) * s j| := Finset.abs_sum_le_sum_abs _ _
      _ ≤ ∑ j, ((1 + ε) ^ 3 - 1) * (|B i j * s j| + |v i * v j / c| * |s j|) := by
          refine Finset.sum_le_sum fun j _ => ?_
          rw [abs_mul]
          calc _ ≤ ((1 + ε) ^ 3 - 1) * (|B i j| + |v i * v j / c|) * |s j| :=
                mul_le_mul_of_nonneg_right (ent j) (abs_nonneg _)
            _ = _ := by rw [abs_mul (B i j)]; ring
      _ = ((1 + ε) ^ 3 - 1) * (a + ∑ j, |v i * v j / c| * |s j|) := by
          rw [← Finset.mul_sum, Finset.sum_add_distrib]
      _ ≤ _ := mul_le_mul_of_nonneg_left (by linarith) h3
  -- the scalar product in the denominator
  have E2 : |v i * ((v ⬝ᵥ s - c) / c)| ≤ |v i| * ((g n - 1) * sr1Kappa ε (g n)) := by
    rw [abs_mul, abs_div]
    refine mul_le_mul_of_nonneg_left ?_ (abs_nonneg _)
    rw [div_le_iff₀ hcp, abs_sub_comm]
    calc |c - v ⬝ᵥ s| ≤ (g n - 1) * S := hu.dot n v s
      _ ≤ (g n - 1) * (sr1Kappa ε (g n) * |c|) := mul_le_mul_of_nonneg_left hS (by linarith)
      _ = _ := by ring
  -- the vector `v`
  have hd : |d - (B *ᵥ s) i| ≤ (g n - 1) * a := hu.dot n (B i) s
  have hBs : |(B *ᵥ s) i| ≤ a := Finset.abs_sum_le_sum_abs (fun j => B i j * s j) Finset.univ
  have hdabs : |d| ≤ g n * a := by
    have : d = (d - (B *ᵥ s) i) + (B *ᵥ s) i := by ring
    rw [this]
    refine (abs_add_le _ _).trans ?_
    linarith
  have E3 : |v i - (y i - (B *ᵥ s) i)| ≤ ε * (|y i| + g n * a) + (g n - 1) * a := by
    have e : v i - (y i - (B *ᵥ s) i) = (v i - (y i - d)) + -(d - (B *ᵥ s) i) := by ring
    rw [e]
    refine (abs_add_le _ _).trans ?_
    rw [abs_neg]
    have h1 : |v i - (y i - d)| ≤ ε * |y i - d| := by rw [hv]; exact hu.sub _ _
    have h2 : |y i - d| ≤ |y i| + |d| := abs_sub _ _
    have h4 := mul_le_mul_of_nonneg_left (h2.trans (add_le_add_right hdabs _)) he0
    linarith
  have key : (B' *ᵥ s) i - y i = (∑ j, (B' i j - (B i j + v i * v j / c)) * s j) + v i * ((v ⬝ᵥ s - c) / c) +
      (v i - (y i - (B *ᵥ s) i)) := by
    have e1 : ∑ j, (B' i j - (B i j + v i * v j / c)) * s j = (B' *ᵥ s) i - (B *ᵥ s) i - v i * (v ⬝ᵥ s) / c := by
      have : v i * (v ⬝ᵥ s) / c = ∑ j, v i * v j / c * s j := by
        rw [dotProduct, Finset.mul_sum, Finset.sum_div]
        exact Finset.sum_congr rfl fun j _ => by ring
      rw [this]
      simp only [Matrix.mulVec, dotProduct]
      rw [← Finset.sum_sub_distrib, ← Finset.sum_sub_distrib]
      exact Finset.sum_congr rfl fun j _ => by ring
    rw [e1, sub_div, div_self hc]
    ring
  rw [key]
  refine (abs_add_le _ _).trans ?_
  have := abs_add_le (∑ j, (B' i j - (B i j + v i * v j / c)) * s j) (v i * ((v ⬝ᵥ s - c) / c))
  nlinarith [this, E1, E2, E3]

/-- C242. The update divides by zero exactly if the step is zero or the computed product `B s` equals `y`: a model that
already satisfies the secant equation is destroyed. -/
theorem sr1_rounded_undefined_iff {ε : ℝ} {g : ℕ → ℝ} (hu : Accurate ar ε g) (hg : g n < 2)
    (hq : ∀ a, 0 ≤ a → |ar.sqrt a - Real.sqrt a| ≤ ε * Real.sqrt a) (B : Matrix (Fin n) (Fin n) ℝ) (s y : Fin n → ℝ) :
    sr1Update ar B s y = none ↔ (s = 0 ∨ ∀ i, ar.dot n (B i) s = y i) := by
  have hsub : ∀ a b, ar.sub a b = 0 ↔ b = a := by
    intro a b
    have h := hu.sub a b
    constructor
    · intro h0
      rw [h0, zero_sub, abs_neg] at h
      have : |a - b| ≤ 0 := by
        by_contra hc
        nlinarith [hu.eps1, not_le.mp hc]
      linarith [abs_nonpos_iff.mp this]
    · rintro rfl
      simpa using h
  have hv0 : (∀ i, ar.dot n (B i) s = y i) ↔ sr1Vec ar B s y = 0 := by
    rw [funext_iff]
    exact forall_congr' fun i => (hsub (y i) (ar.dot n (B i) s)).symm
  rw [hv0]
  set v := sr1Vec ar B s y with hvdef
  have hnorm0 : ar.dot n (0 : Fin n → ℝ) 0 = 0 := by
    have := hu.dot n 0 0
    simpa using this
  have hn0 : norm2 ar (0 : Fin n → ℝ) = 0 := by
    have := hq 0 le_rfl
    unfold norm2
    rw [hnorm0]
    simpa using this
  have hm0 : ∀ a b, a * b = 0 → ar.mul a b = 0 := by
    intro a b h
    have := hu.mul a b
    rw [h] at this
    simpa using this
  constructor
  · intro h
    by_contra hne
    push Not at hne
    obtain ⟨hs, hv⟩ := hne
    have key := guard_lower hu hg hq s v
    have pos : ∀ w : Fin n → ℝ, w ≠ 0 → 0 < ∑ i, w i ^ 2 := by
      intro w hw
      obtain ⟨i, hi⟩ := Function.ne_iff.mp hw
      exact Finset.sum_pos' (fun i _ => sq_nonneg _) ⟨i, Finset.mem_univ _, (sq_pos_iff).mpr hi⟩
    have h1 : 0 < (1 - ε) ^ 5 * (2 - g n) / 1000000 * (Real.sqrt (∑ i, v i ^ 2) * Real.sqrt (∑ i, s i ^ 2)) := by
      have := Real.sqrt_pos.mpr (pos v hv)
      have := Real.sqrt_pos.mpr (pos s hs)
      have : 0 < (1 - ε) ^ 5 := pow_pos (by linarith [hu.eps1]) 5
      have : 0 < 2 - g n := by linarith
      positivity
    unfold sr1Update at h
    simp only [ge_iff_le] at h
    rw [← hvdef] at h
    by_cases hc : ar.dot n v s = 0
    · rw [hc, abs_zero, if_neg (not_le.mpr (h1.trans_le key))] at h
      cases h
    · by_cases hb : ar.mul (ar.mul (ar.lit (1 / 1000000)) (norm2 ar s)) (norm2 ar v) ≤ |ar.dot n v s|
      · rw [if_pos hb, if_neg hc] at h; cases h
      · rw [if_neg hb] at h; cases h
  · intro h
    have hc : ar.dot n v s = 0 := by
      have := hu.dot n v s
      rcases h with rfl | hv
      · simpa using this
      · rw [hv] at this ⊢
        simpa using this
    have hr : ar.mul (ar.mul (ar.lit (1 / 1000000)) (norm2 ar s)) (norm2 ar v) = 0 := by
      rcases h with rfl | hv
      · rw [hn0, hm0 (ar.lit (1 / 1000000)) 0 (mul_zero _), hm0 _ _ (zero_mul _)]
      · rw [hv, hn0, hm0 _ _ (mul_zero _)]
    unfold sr1Update
    simp only [ge_iff_le]
    rw [← hvdef, hc, hr, abs_zero, if_pos le_rfl, if_pos rfl]

/-- Powers of one plus a rounding unit. -/
theorem pow_unit_bound {u : ℝ} (h0 : 0 ≤ u) (h1 : u ≤ 1) (m : ℕ) : (1 + u) ^ m * (1 - m * u) ≤ 1 := by
  have h2 : 1 + (m : ℝ) * (-u) ≤ (1 + -u) ^ m := one_add_mul_le_pow (by linarith) m
  have h3 : (1 + u) ^ m * (1 + -u) ^ m ≤ 1 := by
    rw [← mul_pow]
    exact pow_le_one₀ (by nlinarith) (by nlinarith)
  have h4 := mul_le_mul_of_nonneg_left h2 (pow_nonneg (by linarith : 0 ≤ 1 + u) m)
  have e : 1 - (m : ℝ) * u = 1 + m * (-u) := by ring
  rw [e]
  exact h4.trans h3

/-- C242. In `double`, with or without contraction, for up to a thousand variables: after an update that is not skipped
each secant equation holds up to `2^-23` times the computed entry of `y - B s` and `2^-42` times the sizes of `B s` and `y`. -/
theorem sr1_secant_double {ar : Arith} (har : ar = Arith.plain (roundBits 52) Real.sqrt ∨
      ar = Arith.contracted (roundBits 52) Real.sqrt) (hn : n ≤ 1000) {B B' : Matrix (Fin n) (Fin n) ℝ} {s y : Fin n → ℝ}
    (h : sr1Update ar B s y = some B') :
    B' = B ∨ ∀ i, |(B' *ᵥ s) i - y i| ≤
      1 / 2 ^ 23 * |sr1Vec ar B s y i| + 1 / 2 ^ 42 * (∑ j, |B i j * s j| + |y i|) := by
  have hu : Accurate ar (1 / 2 ^ (52 + 1)) (fun n => (1 + 1 / 2 ^ (52 + 1)) ^ (n + 1)) := by
    rcases har with rfl | rfl
    · exact (accurate_roundBits 52 _).1
    · exact (accurate_roundBits 52 _).2
  have hq : ∀ a, 0 ≤ a → |ar.sqrt a - Real.sqrt a| ≤ 1 / 2 ^ (52 + 1) * Real.sqrt a := by
    intro a _
    have := roundBits_error 52 (Real.sqrt a)
    rw [abs_of_nonneg (Real.sqrt_nonneg a)] at this
    rcases har with rfl | rfl <;> exact this
  have hpow : ((1 : ℝ) + 1 / 2 ^ (52 + 1)) ^ (n + 1) ≤ 1 + 1002 / 2 ^ 53 := by
    have h1 := pow_unit_bound (u := 1 / 2 ^ (52 + 1)) (by norm_num) (by norm_num) (n + 1)
    have h2 : 0 ≤ ((1 : ℝ) + 1 / 2 ^ (52 + 1)) ^ (n + 1) := pow_nonneg (by norm_num) _
    generalize ((1 : ℝ) + 1 / 2 ^ (52 + 1)) ^ (n + 1) = P at h1 h2
    have h3 : ((n + 1 : ℕ) : ℝ) ≤ 1001 := by exact_mod_cast Nat.succ_le_succ hn
    have h4 : P * (1 - 1001 * (1 / 2 ^ (52 + 1))) ≤ 1 := by
      refine le_trans (mul_le_mul_of_nonneg_left ?_ h2) h1
      have : ((n + 1 : ℕ) : ℝ) * (1 / 2 ^ (52 + 1)) ≤ 1001 * (1 / 2 ^ (52 + 1)) :=
        mul_le_mul_of_nonneg_right h3 (by norm_num)
      linarith
    norm_num at h4 ⊢
    linarith
  have hg : ((1 : ℝ) + 1 / 2 ^ (52 + 1)) ^ (n + 1) < 2 := hpow.trans_lt (by norm_num)
  have hg1 : 1 ≤ ((1 : ℝ) + 1 / 2 ^ (52 + 1)) ^ (n + 1) := one_le_pow₀ (by norm_num)
  rcases sr1_secant_error hu hg hq h with h1 | h1
  · exact Or.inl h1
  refine Or.inr fun i => (h1 i).trans ?_
  generalize ((1 : ℝ) + 1 / 2 ^ (52 + 1)) ^ (n + 1) = γ at hpow hg hg1
  have hk : sr1Kappa (1 / 2 ^ (52 + 1)) γ ≤ 1000001 := by
    unfold sr1Kappa
    rw [div_le_iff₀ (mul_pos (by norm_num) (by linarith))]
    norm_num at hpow ⊢
    linarith
  have hk0 : 0 ≤ sr1Kappa (1 / 2 ^ (52 + 1)) γ :=
    div_nonneg (by norm_num) (mul_nonneg (by norm_num) (by linarith))
  have a1 : ((1 + 1 / 2 ^ (52 + 1)) ^ 3 - 1 + (γ - 1)) * sr1Kappa (1 / 2 ^ (52 + 1)) γ ≤ 1 / 2 ^ 23 := by
    have b1 : (1 + 1 / 2 ^ (52 + 1)) ^ 3 - 1 + (γ - 1) ≤ 1006 / 2 ^ 53 := by
      norm_num at hpow ⊢
      linarith
    refine (mul_le_mul b1 hk hk0 (by norm_num)).trans ?_
    norm_num
  have a2 : (1 + 1 / 2 ^ (52 + 1)) ^ 3 - 1 + (γ - 1) + 1 / 2 ^ (52 + 1) * γ ≤ 1 / 2 ^ 42 := by
    norm_num at hpow ⊢
    linarith
  have b1 := mul_le_mul_of_nonneg_right a1 (abs_nonneg (sr1Vec ar B s y i))
  have b2 := mul_le_mul_of_nonneg_right a2 (Finset.sum_nonneg fun j (_ : j ∈ Finset.univ) => abs_nonneg (B i j * s j))
  have b3 : 1 / 2 ^ (52 + 1) * |y i| ≤ 1 / 2 ^ 42 * |y i| := mul_le_mul_of_nonneg_right (by norm_num) (abs_nonneg _)
  linarith

/-! ## Non-vacuity -/

/-- An update that is not skipped, for every arithmetic that is exact on the numbers involved. -/
theorem sr1_example {ar : Arith} (hd : ∀ a b : Fin 1 → ℝ, (a 0 * b 0 = 1 ∨ a 0 * b 0 = 2 ∨ a 0 * b 0 = 4) → ar.dot 1 a b = a 0 * b 0)
    (hs : ar.sub 3 1 = 2) (hq1 : ar.sqrt 1 = 1) (hq4 : ar.sqrt 4 = 2) (hm : ar.mul 2 2 = 4) (hv : ar.div 4 2 = 2)
    (ha : ar.add 1 2 = 3) (hg : ar.mul (ar.mul (ar.lit (1 / 1000000)) 1) 2 ≤ 2) :
    sr1Update ar (fun _ _ : Fin 1 => 1) (fun _ => 1) (fun _ => 3) = some fun _ _ => 3 := by
  have v : sr1Vec ar (fun _ _ : Fin 1 => 1) (fun _ => 1) (fun _ => 3) = fun _ => 2 := by
    funext i
    show ar.sub 3 (ar.dot 1 (fun _ => 1) fun _ => 1) = 2
    rw [hd _ _ (by norm_num), mul_one, hs]
  have n1 : norm2 ar (fun _ : Fin 1 => (1 : ℝ)) = 1 := by
    unfold norm2; rw [hd _ _ (by norm_num), mul_one, hq1]
  have n2 : norm2 ar (fun _ : Fin 1 => (2 : ℝ)) = 2 := by
    unfold norm2; rw [hd _ _ (by norm_num)]; norm_num [hq4]
  have c : ar.dot 1 (fun _ => (2 : ℝ)) (fun _ => 1) = 2 := by rw [hd _ _ (by norm_num), mul_one]
  unfold sr1Update
  simp only [v, n1, n2, c]
  rw [if_pos (by rw [abs_of_pos (by norm_num : (0 : ℝ) < 2)]; exact hg), if_neg (by norm_num)]
  simp only [hm, hv, ha]
  rfl

/-- In exact arithmetic. -/
example : sr1Update (Arith.exact Real.sqrt) (fun _ _ : Fin 1 => 1) (fun _ => 1) (fun _ => 3) = some fun _ _ => 3 := by
  have h4 : Real.sqrt 4 = 2 := by
    rw [show (4 : ℝ) = 2 ^ 2 by norm_num]; exact Real.sqrt_sq (by norm_num)
  refine sr1_example (fun a b _ => ?_) ?_ Real.sqrt_one h4 ?_ ?_ ?_ ?_
  · simp [Arith.exact, dotProduct]
  all_goals norm_num [Arith.exact]

/-- In `double`. -/
example : sr1Update (Arith.plain (roundBits 52) Real.sqrt) (fun _ _ : Fin 1 => 1) (fun _ => 1) (fun _ => 3) =
    some fun _ _ => 3 := by
  have f1 : roundBits 52 1 = 1 := double_facts.2.1
  have f2 : roundBits 52 2 = 2 := by
    have := roundBits_eq 52 (t := 2) 1 (2 ^ 52) (by norm_num) (by norm_num) (by norm_num)
    rw [this]; norm_num
  have f3 : roundBits 52 3 = 3 := by
    have := roundBits_eq 52 (t := 3) 1 (2 ^ 52 + 2 ^ 51) (by norm_num) (by norm_num) (by norm_num)
    rw [this]; norm_num
  have f4 : roundBits 52 4 = 4 := by
    have := roundBits_eq 52 (t := 4) 2 (2 ^ 52) (by norm_num) (by norm_num) (by norm_num)
    rw [this]; norm_num
  have h4 : Real.sqrt 4 = 2 := by
    rw [show (4 : ℝ) = 2 ^ 2 by norm_num]; exact Real.sqrt_sq (by norm_num)
  have e : ∀ t, 0 ≤ t → roundBits 52 t ≤ 2 * t := by
    intro t ht
    have := (abs_le.mp (roundBits_error 52 t)).2
    rw [abs_of_nonneg ht] at this
    have h2 : 1 / 2 ^ (52 + 1) * t ≤ 1 * t := mul_le_mul_of_nonneg_right (by norm_num) ht
    linarith
  have p : ∀ t, 0 ≤ t → 0 ≤ roundBits 52 t := by
    intro t ht
    have := (abs_le.mp (roundBits_error 52 t)).1
    rw [abs_of_nonneg ht] at this
    have h2 : 1 / 2 ^ (52 + 1) * t ≤ 1 * t := mul_le_mul_of_nonneg_right (by norm_num) ht
    linarith
  refine sr1_example (fun a b h => ?_) ?_ ?_ ?_ ?_ ?_ ?_ ?_
  · simp only [Arith.plain, Fin.foldl_succ, Fin.foldl_zero]
    rcases h with h | h | h <;> simp [h, f1, f2, f4]
  · show roundBits 52 (3 - 1) = 2
    norm_num [f2]
  · show roundBits 52 (Real.sqrt 1) = 1
    rw [Real.sqrt_one, f1]
  · show roundBits 52 (Real.sqrt 4) = 2
    rw [h4, f2]
  · show roundBits 52 (2 * 2) = 4
    norm_num [f4]
  · show roundBits 52 (4 / 2) = 2
    norm_num [f2]
  · show roundBits 52 (1 + 2) = 3
    norm_num [f3]
  · show roundBits 52 (roundBits 52 (roundBits 52 (1 / 1000000) * 1) * 2) ≤ 2
    have q1 := e (1 / 1000000) (by norm_num)
    have q1' := p (1 / 1000000) (by norm_num)
    have q2 := e (roundBits 52 (1 / 1000000) * 1) (by linarith)
    have q2' := p (roundBits 52 (1 / 1000000) * 1) (by linarith)
    have q3 := e (roundBits 52 (roundBits 52 (1 / 1000000) * 1) * 2) (by linarith)
    linarith

end PolyMPC.BfgsR
