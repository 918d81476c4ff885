import Verif.Props.LqrStable

/-!
# Accuracy and speed of the Riccati iteration (C233)
-/

set_option linter.unusedSectionVars false
set_option linter.unusedVariables false

namespace PolyMPC.Spec
open Matrix

/-- The symmetric matrix `M` is at most `c` in size: `|x'Mx| ≤ c x'x`. -/
def SizeLe {n : ℕ} (M : Matrix (Fin n) (Fin n) ℝ) (c : ℝ) : Prop := ∀ x : Fin n → ℝ, |x ⬝ᵥ M *ᵥ x| ≤ c * (x ⬝ᵥ x)

/-- `x'Px` is positive and falls along `xdot = L x` at least at the rate `x'x`; `x'Px` is then at least the integral of `|x(t)|²`. -/
structure Falls {n : ℕ} (L P : Matrix (Fin n) (Fin n) ℝ) : Prop where
  symm : Pᵀ = P
  pos : ∀ x : Fin n → ℝ, x ≠ 0 → 0 < x ⬝ᵥ P *ᵥ x
  rate : ∀ x : Fin n → ℝ, 2 * (x ⬝ᵥ P *ᵥ (L *ᵥ x)) ≤ -(x ⬝ᵥ x)

/-- `Y` is the cost matrix of the feedback with closed loop `L` and running cost `x'Wx`: `x'Yx` falls exactly by the running cost. -/
def CostOf {n : ℕ} (L W Y : Matrix (Fin n) (Fin n) ℝ) : Prop := Yᵀ = Y ∧ Lᵀ * Y + Y * L = -W

end PolyMPC.Spec

namespace PolyMPC.Lqr
open Matrix Spec Set

variable (e : Ext) {n : ℕ}

/-! ### Sizes -/

theorem self_nonneg (x : Fin n → ℝ) : 0 ≤ x ⬝ᵥ x := Finset.sum_nonneg fun i _ => mul_self_nonneg _

theorem self_pos {x : Fin n → ℝ} (hx : x ≠ 0) : 0 < x ⬝ᵥ x := by
  obtain ⟨i, hi⟩ := Function.ne_iff.1 hx
  exact Finset.sum_pos' (fun i _ => mul_self_nonneg _) ⟨i, Finset.mem_univ i, mul_self_pos.2 hi⟩

theorem dot_sq_le (x y : Fin n → ℝ) : (x ⬝ᵥ y) ^ 2 ≤ (x ⬝ᵥ x) * (y ⬝ᵥ y) := by
  have := Finset.sum_mul_sq_le_sq_mul_sq Finset.univ x y
  simpa [dotProduct, sq] using this

/-- The image under a symmetric matrix. -/
theorem image_le {M : Matrix (Fin n) (Fin n) ℝ} (hM : Mᵀ = M) {c : ℝ} (hc : 0 ≤ c) (h : SizeLe M c) (x : Fin n → ℝ) :
    (M *ᵥ x) ⬝ᵥ (M *ᵥ x) ≤ c ^ 2 * (x ⬝ᵥ x) := by
  rcases hc.eq_or_lt with rfl | hc
  · -- all forms vanish, so does the image
    have hz : ∀ y : Fin n → ℝ, y ⬝ᵥ M *ᵥ y = 0 := fun y => by
      have := h y
      rw [zero_mul] at this
      exact abs_eq_zero.1 (le_antisymm this (abs_nonneg _))
    have h1 := hz (x + M *ᵥ x)
    rw [mulVec_add, dotProduct_add, add_dotProduct, add_dotProduct, hz, hz, bil_symm hM x (M *ᵥ x)] at h1
    have h2 : (M *ᵥ x) ⬝ᵥ M *ᵥ x = 0 := by linarith
    rw [h2]; simp
  · set y := (1 / c) • (M *ᵥ x) with hy
    have h1 := (abs_le.1 (h (x + y))).2
    have h2 := (abs_le.1 (h (x - y))).1
    have e1 : y ⬝ᵥ M *ᵥ x = 1 / c * ((M *ᵥ x) ⬝ᵥ (M *ᵥ x)) := by rw [hy, smul_dotProduct, smul_eq_mul]
    have e2 : y ⬝ᵥ y = (1 / c) ^ 2 * ((M *ᵥ x) ⬝ᵥ (M *ᵥ x)) := by
      rw [hy, smul_dotProduct, dotProduct_smul, smul_eq_mul, smul_eq_mul]; ring
    rw [mulVec_add, dotProduct_add, add_dotProduct, add_dotProduct, dotProduct_add, add_dotProduct, add_dotProduct, bil_symm hM x y] at h1
    rw [mulVec_sub, dotProduct_sub, sub_dotProduct, sub_dotProduct, dotProduct_sub, sub_dotProduct, sub_dotProduct, bil_symm hM x y] at h2
    have h3 : 4 * (y ⬝ᵥ M *ᵥ x) ≤ 2 * c * (x ⬝ᵥ x + y ⬝ᵥ y) := by nlinarith
    rw [e1, e2] at h3
    have h4 : c * (4 * (1 / c * ((M *ᵥ x) ⬝ᵥ (M *ᵥ x)))) ≤ c * (2 * c * (x ⬝ᵥ x + (1 / c) ^ 2 * ((M *ᵥ x) ⬝ᵥ (M *ᵥ x)))) :=
      mul_le_mul_of_nonneg_left h3 hc.le
    have e3 : c * (4 * (1 / c * ((M *ᵥ x) ⬝ᵥ (M *ᵥ x)))) = 4 * ((M *ᵥ x) ⬝ᵥ (M *ᵥ x)) := by field_simp
    have e4 : c * (2 * c * (x ⬝ᵥ x + (1 / c) ^ 2 * ((M *ᵥ x) ⬝ᵥ (M *ᵥ x)))) = 2 * c ^ 2 * (x ⬝ᵥ x) + 2 * ((M *ᵥ x) ⬝ᵥ (M *ᵥ x)) := by
      field_simp
    rw [e3, e4] at h4
    linarith

/-- The Frobenius norm bounds the size. -/
theorem size_of_norm (M : Matrix (Fin n) (Fin n) ℝ) : SizeLe M (Real.sqrt (sqNorm M)) := by
  intro x
  have h1 : (M *ᵥ x) ⬝ᵥ (M *ᵥ x) ≤ sqNorm M * (x ⬝ᵥ x) := by
    unfold sqNorm
    rw [Finset.sum_mul]
    refine Finset.sum_le_sum fun i _ => ?_
    have := Finset.sum_mul_sq_le_sq_mul_sq Finset.univ (M i) x
    simpa [mulVec, dotProduct, sq] using this
  have h2 := dot_sq_le x (M *ᵥ x)
  have h3 := self_nonneg x
  refine abs_le_of_sq_le_sq ?_ (by positivity)
  rw [mul_pow, Real.sq_sqrt (sqNorm_nonneg M)]
  nlinarith

/-- The size bounds the Frobenius norm. -/
theorem norm_of_size {M : Matrix (Fin n) (Fin n) ℝ} (hM : Mᵀ = M) {c : ℝ} (hc : 0 ≤ c) (h : SizeLe M c) : sqNorm M ≤ n * c ^ 2 := by
  have h1 : ∀ j : Fin n, ∑ i, M i j ^ 2 ≤ c ^ 2 := fun j => by
    have := image_le hM hc h (Pi.single j 1)
    rw [mulVec_single_one, single_dotProduct, Pi.single_eq_same, mul_one, mul_one] at this
    simpa [dotProduct, sq, col] using this
  unfold sqNorm
  rw [Finset.sum_comm]
  calc ∑ j, ∑ i, M i j ^ 2 ≤ ∑ _j : Fin n, c ^ 2 := Finset.sum_le_sum fun j _ => h1 j
    _ = n * c ^ 2 := by simp

/-! ### Lyapunov functions -/

/-- What grows at most at the rate `r x'x` is at least `-r x'Px`. -/
theorem falls_bound {L P D : Matrix (Fin n) (Fin n) ℝ} (hP : Falls L P) (hD : Dᵀ = D) {r : ℝ} (hr : 0 ≤ r)
    (h : ∀ x : Fin n → ℝ, x ⬝ᵥ (Lᵀ * D + D * L) *ᵥ x ≤ r * (x ⬝ᵥ x)) (x : Fin n → ℝ) : -(r * (x ⬝ᵥ P *ᵥ x)) ≤ x ⬝ᵥ D *ᵥ x := by
  have hlt : ∀ x : Fin n → ℝ, x ≠ 0 → x ⬝ᵥ P *ᵥ (L *ᵥ x) < 0 := fun x hx => by
    have := hP.rate x
    have := self_pos hx
    linarith
  have hN : (r • P + D)ᵀ = r • P + D := by rw [transpose_add, transpose_smul, hP.symm, hD]
  have hq : ∀ y z : Fin n → ℝ, y ⬝ᵥ (r • P + D) *ᵥ z = r * (y ⬝ᵥ P *ᵥ z) + y ⬝ᵥ D *ᵥ z := fun y z => by
    rw [add_mulVec, smul_mulVec, dotProduct_add, dotProduct_smul, smul_eq_mul]
  have := nonneg_of_decrease hP.symm hP.pos hlt hN (fun y => by
    have h1 := h y
    rw [quad_lyap hD] at h1
    have h2 := mul_le_mul_of_nonneg_left (hP.rate y) hr
    rw [hq]
    linarith) x
  rw [hq] at this
  linarith

theorem falls_hurwitz {L P : Matrix (Fin n) (Fin n) ℝ} (hP : Falls L P) : Hurwitz L := by
  rw [hurwitz_iff]
  intro a b x y hxy hx hy
  have hsum := eig_form hP.symm hx hy
  have r1 := hP.rate x
  have r2 := hP.rate y
  have n1 := self_nonneg x
  have n2 := self_nonneg y
  have nn : ∀ z : Fin n → ℝ, 0 ≤ z ⬝ᵥ P *ᵥ z := fun z => by
    by_cases hz : z = 0
    · simp [hz]
    · exact (hP.pos z hz).le
  have hpos : 0 < x ⬝ᵥ x + y ⬝ᵥ y := by
    rcases hxy with h | h
    · exact add_pos_of_pos_of_nonneg (self_pos h) n2
    · exact add_pos_of_nonneg_of_pos n1 (self_pos h)
  by_contra ha
  rw [not_lt] at ha
  have := mul_nonneg ha (add_nonneg (nn x) (nn y))
  linarith

/-! ### A posteriori bounds -/

theorem residual_diff {A B C X Z : Matrix (Fin n) (Fin n) ℝ} (hX : Xᵀ = X) (hZ : Zᵀ = Z) (hB : Bᵀ = B) (hsol : SolvesCare A B C Z) :
    (A - B * X)ᵀ * (X - Z) + (X - Z) * (A - B * X) = residual A B C X - (X - Z) * B * (X - Z) ∧
    (A - B * Z)ᵀ * (X - Z) + (X - Z) * (A - B * Z) = residual A B C X + (X - Z) * B * (X - Z) := by
  have h := (residual_zero_iff A B C Z).2 hsol
  have h' : residual A B C X = residual A B C X - residual A B C Z := by rw [h, sub_zero]
  rw [h']
  unfold residual
  simp only [transpose_sub, transpose_mul, hX, hZ, hB, Matrix.mul_sub, Matrix.sub_mul, Matrix.mul_assoc]
  constructor <;> abel

theorem form_dbd {B D : Matrix (Fin n) (Fin n) ℝ} (hD : Dᵀ = D) (x : Fin n → ℝ) : x ⬝ᵥ (D * B * D) *ᵥ x = (D *ᵥ x) ⬝ᵥ B *ᵥ (D *ᵥ x) := by
  have := quad_congr B D x
  rwa [hD] at this

/-- **C233. What a small residual means.** Let `Z` be a stabilising solution of the Riccati equation and `X` a symmetric matrix that stabilises, with
residual of norm `r`. Then `X` differs from `Z` by at most `r` times the integral of `|x(t)|²` along the closed loops. -/
theorem care_accuracy {A B C X Z P Q : Matrix (Fin n) (Fin n) ℝ} (hB : B.PosSemidef) (hX : Xᵀ = X) (hZ : Zᵀ = Z) (hsol : SolvesCare A B C Z)
    (hP : Falls (A - B * X) P) (hQ : Falls (A - B * Z) Q) {r : ℝ} (hr : Real.sqrt (sqNorm (residual A B C X)) ≤ r) (x : Fin n → ℝ) :
    -(r * (x ⬝ᵥ P *ᵥ x)) ≤ x ⬝ᵥ (X - Z) *ᵥ x ∧ x ⬝ᵥ (X - Z) *ᵥ x ≤ r * (x ⬝ᵥ Q *ᵥ x) := by
  have hD : (X - Z)ᵀ = X - Z := by rw [transpose_sub, hX, hZ]
  have hr0 : 0 ≤ r := (Real.sqrt_nonneg _).trans hr
  have hR : ∀ y : Fin n → ℝ, |y ⬝ᵥ residual A B C X *ᵥ y| ≤ r * (y ⬝ᵥ y) := fun y =>
    (size_of_norm _ y).trans (mul_le_mul_of_nonneg_right hr (self_nonneg y))
  obtain ⟨i1, i2⟩ := residual_diff hX hZ (symm_of_psd hB) hsol
  have hV : ∀ y : Fin n → ℝ, 0 ≤ y ⬝ᵥ ((X - Z) * B * (X - Z)) *ᵥ y := fun y => by rw [form_dbd hD]; exact quad_nonneg hB _
  refine ⟨falls_bound hP hD hr0 (fun y => ?_) x, ?_⟩
  · rw [i1, sub_mulVec, dotProduct_sub]
    linarith [hV y, (abs_le.1 (hR y)).2]
  · have hD' : (-(X - Z))ᵀ = -(X - Z) := by rw [transpose_neg, hD]
    have := falls_bound hQ hD' hr0 (fun y => by
      rw [Matrix.mul_neg, Matrix.neg_mul, ← neg_add, i2, neg_mulVec, dotProduct_neg, add_mulVec, dotProduct_add]
      linarith [hV y, (abs_le.1 (hR y)).1]) x
    rw [neg_mulVec, dotProduct_neg] at this
    linarith

/-- **C233. The cost of the feedback that belongs to `X`.** The cost `Y` that the closed loop `A - BX` really has differs from `X` by at most `r` times the
integral of `|x(t)|²`, and it is not below the optimal cost. -/
theorem gain_cost {A B C X Y Z P : Matrix (Fin n) (Fin n) ℝ} (hB : B.PosSemidef) (hX : Xᵀ = X) (hZ : Zᵀ = Z) (hsol : SolvesCare A B C Z)
    (hP : Falls (A - B * X) P) (hY : CostOf (A - B * X) (C + X * B * X) Y) {r : ℝ} (hr : Real.sqrt (sqNorm (residual A B C X)) ≤ r) (x : Fin n → ℝ) :
    |x ⬝ᵥ (Y - X) *ᵥ x| ≤ r * (x ⬝ᵥ P *ᵥ x) ∧ 0 ≤ x ⬝ᵥ (Y - Z) *ᵥ x := by
  obtain ⟨hYs, hYe⟩ := hY
  have hBs := symm_of_psd hB
  have hr0 : 0 ≤ r := (Real.sqrt_nonneg _).trans hr
  have hR : ∀ y : Fin n → ℝ, |y ⬝ᵥ residual A B C X *ᵥ y| ≤ r * (y ⬝ᵥ y) := fun y =>
    (size_of_norm _ y).trans (mul_le_mul_of_nonneg_right hr (self_nonneg y))
  have hE : (Y - X)ᵀ = Y - X := by rw [transpose_sub, hYs, hX]
  have i1 : (A - B * X)ᵀ * (Y - X) + (Y - X) * (A - B * X) = -residual A B C X := by
    rw [Matrix.mul_sub, Matrix.sub_mul,
      show (A - B * X)ᵀ * Y - (A - B * X)ᵀ * X + (Y * (A - B * X) - X * (A - B * X)) = ((A - B * X)ᵀ * Y + Y * (A - B * X)) - ((A - B * X)ᵀ * X + X * (A - B * X)) by abel, hYe]
    unfold residual
    simp only [transpose_sub, transpose_mul, hX, hBs, Matrix.mul_sub, Matrix.sub_mul, Matrix.mul_assoc]
    abel
  have lo := falls_bound hP hE hr0 (fun y => by
    rw [i1, neg_mulVec, dotProduct_neg]
    linarith [(abs_le.1 (hR y)).1]) x
  have hi := falls_bound hP (D := -(Y - X)) (by rw [transpose_neg, hE]) hr0 (fun y => by
    rw [Matrix.mul_neg, Matrix.neg_mul, ← neg_add, i1, neg_neg]
    exact (abs_le.1 (hR y)).2) x
  rw [neg_mulVec, dotProduct_neg] at hi
  refine ⟨abs_le.2 ⟨lo, by linarith⟩, ?_⟩
  have hF : (Y - Z)ᵀ = Y - Z := by rw [transpose_sub, hYs, hZ]
  have hD : (X - Z)ᵀ = X - Z := by rw [transpose_sub, hX, hZ]
  have i2 : (A - B * X)ᵀ * (Y - Z) + (Y - Z) * (A - B * X) = -((X - Z) * B * (X - Z)) := by
    have := (residual_diff hX hZ hBs hsol).1
    rw [show Y - Z = (Y - X) + (X - Z) by abel, Matrix.mul_add, Matrix.add_mul,
      show (A - B * X)ᵀ * (Y - X) + (A - B * X)ᵀ * (X - Z) + ((Y - X) * (A - B * X) + (X - Z) * (A - B * X))
        = ((A - B * X)ᵀ * (Y - X) + (Y - X) * (A - B * X)) + ((A - B * X)ᵀ * (X - Z) + (X - Z) * (A - B * X)) by abel, i1, this]
    abel
  have := falls_bound hP hF (le_refl 0) (fun y => by
    rw [i2, neg_mulVec, dotProduct_neg, form_dbd hD, zero_mul]
    linarith [quad_nonneg hB ((X - Z) *ᵥ y)]) x
  simpa using this

/-! ### Near a solution -/

/-- The closed loop of a matrix near the solution. -/
theorem falls_near {A B X Z Q : Matrix (Fin n) (Fin n) ℝ} (hX : Xᵀ = X) (hZ : Zᵀ = Z) (hBs : Bᵀ = B) (hQ : Falls (A - B * Z) Q) {p b d : ℝ}
    (hp : 0 ≤ p) (hb : 0 ≤ b) (hd : 0 ≤ d) (hQp : SizeLe Q p) (hBb : SizeLe B b) (hDd : SizeLe (X - Z) d) (hsmall : 4 * (p * b * d) ≤ 1) :
    Falls (A - B * X) ((2 : ℝ) • Q) := by
  have hD : (X - Z)ᵀ = X - Z := by rw [transpose_sub, hX, hZ]
  refine ⟨by rw [transpose_smul, hQ.symm], fun x hx => ?_, fun x => ?_⟩
  · rw [smul_mulVec, dotProduct_smul, smul_eq_mul]
    linarith [hQ.pos x hx]
  · have e1 : (A - B * X) *ᵥ x = (A - B * Z) *ᵥ x - B *ᵥ ((X - Z) *ᵥ x) := by
      rw [mulVec_mulVec, Matrix.mul_sub, ← sub_mulVec]
      congr 1
      abel
    have e2 : x ⬝ᵥ Q *ᵥ (B *ᵥ ((X - Z) *ᵥ x)) = (Q *ᵥ x) ⬝ᵥ (B *ᵥ ((X - Z) *ᵥ x)) := by
      rw [bil_symm hQ.symm, dotProduct_comm]
    have h1 := dot_sq_le (Q *ᵥ x) (B *ᵥ ((X - Z) *ᵥ x))
    have h2 := image_le hQ.symm hp hQp x
    have h3 := image_le hBs hb hBb ((X - Z) *ᵥ x)
    have h4 := image_le hD hd hDd x
    have n1 := self_nonneg x
    have n2 := self_nonneg (Q *ᵥ x)
    have n3 := self_nonneg (B *ᵥ ((X - Z) *ᵥ x))
    have h5 : (B *ᵥ ((X - Z) *ᵥ x)) ⬝ᵥ (B *ᵥ ((X - Z) *ᵥ x)) ≤ b ^ 2 * (d ^ 2 * (x ⬝ᵥ x)) := h3.trans (mul_le_mul_of_nonneg_left h4 (by positivity))
    have h6 : |(Q *ᵥ x) ⬝ᵥ (B *ᵥ ((X - Z) *ᵥ x))| ≤ p * b * d * (x ⬝ᵥ x) := by
      refine abs_le_of_sq_le_sq ?_ (by positivity)
      calc _ ≤ _ := h1
        _ ≤ (p ^ 2 * (x ⬝ᵥ x)) * (b ^ 2 * (d ^ 2 * (x ⬝ᵥ x))) := mul_le_mul h2 h5 n3 (by positivity)
        _ = _ := by ring
    have h7 := (abs_le.1 h6).1
    have h8 := hQ.rate x
    have h9 : 4 * (p * b * d) * (x ⬝ᵥ x) ≤ 1 * (x ⬝ᵥ x) := mul_le_mul_of_nonneg_right hsmall n1
    rw [e1, smul_mulVec, mulVec_sub, dotProduct_smul, dotProduct_sub, smul_eq_mul, e2]
    linarith

theorem size_le_of {M : Matrix (Fin n) (Fin n) ℝ} {c c' : ℝ} (h : SizeLe M c) (hc : c ≤ c') : SizeLe M c' := fun x =>
  (h x).trans (mul_le_mul_of_nonneg_right hc (self_nonneg x))

/-- One step. `d` is the distance from the solution before the step; `q` is `4 p b √n`. -/
theorem step_quadratic (hs : SolveOk e) (hroots : RootsOk e) {A B C X Z Q : Matrix (Fin n) (Fin n) ℝ} (hB : B.PosSemidef) (hC : Cᵀ = C) (hX : Xᵀ = X)
    (hZ : Zᵀ = Z) (hsol : SolvesCare A B C Z) (hQ : Falls (A - B * Z) Q) {p b d : ℝ} (hp : 0 ≤ p) (hb : 0 ≤ b) (hd : 0 ≤ d) (hQp : SizeLe Q p)
    (hBb : SizeLe B b) (hDd : SizeLe (X - Z) d) (hsmall : 8 * (p * b * d) ≤ 1) (hreal : RealAt e A B X) {X' : Matrix (Fin n) (Fin n) ℝ} {err : ℝ}
    (hstep : newtonStep e A B C X = some (X', err)) :
    X'ᵀ = X' ∧ Falls (A - B * X') ((2 : ℝ) • Q) ∧ Real.sqrt (sqNorm (residual A B C X')) ≤ Real.sqrt n * (25 / 16 * b * d ^ 2) ∧
      SizeLe (X' - Z) (4 * p * b * Real.sqrt n * d ^ 2) ∧ SizeLe (X' - Z) (3 / 2 * d) := by
  have hBs := symm_of_psd hB
  have hD : (X - Z)ᵀ = X - Z := by rw [transpose_sub, hX, hZ]
  have hP := falls_near hX hZ hBs hQ hp hb hd hQp hBb hDd (by linarith [mul_nonneg (mul_nonneg hp hb) hd])
  have hst := falls_hurwitz hP
  have hg : GoodAt e A B X := ⟨hreal.1, stable_regular e _ hreal.1 hreal.2 hst, hreal.2⟩
  obtain ⟨hX's, -, H, hH, ⟨t, ht, hX'⟩, hbest⟩ := newtonStep_best e hs hroots A B C X hg hX hBs hC X' err hstep
  have hHd : H = direction e A B C X := by
    refine lyapunov_unique e (A - B * X)ᵀ (-residual A B C X) _ _ hg.1 hg.2.1 hg.2.2 ?_ ?_ <;>
      unfold SolvesLyapunov <;> rw [Matrix.transpose_transpose]
    · exact hH
    · exact direction_solves e hs A B C X hg
  have hHs : Hᵀ = H := hHd ▸ direction_symm e hs A B C X hg hX hBs hC
  -- the full step
  set E := X + H - Z with hE
  have hEs : Eᵀ = E := by rw [hE, transpose_sub, transpose_add, hX, hHs, hZ]
  have hEe : (A - B * X)ᵀ * E + E * (A - B * X) = -((X - Z) * B * (X - Z)) := by
    have := (residual_diff hX hZ hBs hsol).1
    rw [show E = H + (X - Z) by rw [hE]; abel, Matrix.mul_add, Matrix.add_mul,
      show (A - B * X)ᵀ * H + (A - B * X)ᵀ * (X - Z) + (H * (A - B * X) + (X - Z) * (A - B * X))
        = ((A - B * X)ᵀ * H + H * (A - B * X)) + ((A - B * X)ᵀ * (X - Z) + (X - Z) * (A - B * X)) by abel, hH, this]
    abel
  have hDBD : ∀ y : Fin n → ℝ, y ⬝ᵥ ((X - Z) * B * (X - Z)) *ᵥ y ≤ b * d ^ 2 * (y ⬝ᵥ y) := fun y => by
    rw [form_dbd hD]
    have h1 := (abs_le.1 (hBb ((X - Z) *ᵥ y))).2
    have h2 := mul_le_mul_of_nonneg_left (image_le hD hd hDd y) hb
    linarith
  have hElo : ∀ x : Fin n → ℝ, 0 ≤ x ⬝ᵥ E *ᵥ x := fun x => by
    have := falls_bound hP hEs (le_refl 0) (fun y => by
      rw [hEe, neg_mulVec, dotProduct_neg, form_dbd hD, zero_mul]
      linarith [quad_nonneg hB ((X - Z) *ᵥ y)]) x
    simpa using this
  have hEhi : ∀ x : Fin n → ℝ, x ⬝ᵥ E *ᵥ x ≤ 2 * (p * b * d ^ 2) * (x ⬝ᵥ x) := fun x => by
    have := falls_bound hP (D := -E) (by rw [transpose_neg, hEs]) (show 0 ≤ b * d ^ 2 by positivity) (fun y => by
      rw [Matrix.mul_neg, Matrix.neg_mul, ← neg_add, hEe, neg_neg]
      exact hDBD y) x
    rw [neg_mulVec, dotProduct_neg, smul_mulVec, dotProduct_smul, smul_eq_mul] at this
    have h2 := mul_le_mul_of_nonneg_left (abs_le.1 (hQp x)).2 (show 0 ≤ b * d ^ 2 by positivity)
    linarith
  have hpbd : p * b * d ^ 2 ≤ d / 8 := by nlinarith
  have hEsz : ∀ x : Fin n → ℝ, |x ⬝ᵥ E *ᵥ x| ≤ d / 4 * (x ⬝ᵥ x) := fun x => by
    rw [abs_of_nonneg (hElo x)]
    refine (hEhi x).trans (mul_le_mul_of_nonneg_right (by linarith) (self_nonneg x))
  have hHsz : SizeLe H (5 / 4 * d) := fun x => by
    have e1 : H = E - (X - Z) := by rw [hE]; abel
    rw [e1, sub_mulVec, dotProduct_sub]
    have h1 := abs_le.1 (hEsz x)
    have h2 := abs_le.1 (hDd x)
    rw [abs_le]
    constructor <;> linarith [h1.1, h1.2, h2.1, h2.2]
  -- the residual
  have hVs := v_symm hHs hBs
  have hVsz : SizeLe (H * B * H) (25 / 16 * b * d ^ 2) := fun x => by
    rw [form_dbd hHs, abs_of_nonneg (quad_nonneg hB _)]
    have h1 := (abs_le.1 (hBb (H *ᵥ x))).2
    have h2 := mul_le_mul_of_nonneg_left (image_le hHs (by positivity) hHsz x) hb
    linarith
  have hres : sqNorm (residual A B C X') ≤ n * (25 / 16 * b * d ^ 2) ^ 2 := by
    refine (hbest 1 ⟨by norm_num, by norm_num⟩).trans ?_
    rw [residual_along A B C X H hX hBs hH 1]
    have : (1 - 1 : ℝ) • residual A B C X - (1 : ℝ) ^ 2 • (H * B * H) = -(H * B * H) := by simp
    rw [this]
    have e1 : sqNorm (-(H * B * H)) = sqNorm (H * B * H) := by unfold sqNorm; simp
    rw [e1]
    exact norm_of_size hVs (by positivity) hVsz
  have hrt : Real.sqrt (sqNorm (residual A B C X')) ≤ Real.sqrt n * (25 / 16 * b * d ^ 2) := by
    refine (Real.sqrt_le_sqrt hres).trans ?_
    rw [Real.sqrt_mul (Nat.cast_nonneg n), Real.sqrt_sq (by positivity)]
  -- the distance
  have hD'a : SizeLe (X' - Z) (3 / 2 * d) := fun x => by
    have e1 : X' - Z = (1 - t) • (X - Z) + t • E := by rw [hX', hE]; module
    rw [e1, add_mulVec, smul_mulVec, smul_mulVec, dotProduct_add, dotProduct_smul, dotProduct_smul, smul_eq_mul, smul_eq_mul]
    have h1 := hDd x
    have h2 := hEsz x
    have h3 : |1 - t| ≤ 1 := abs_le.2 ⟨by linarith [ht.2], by linarith [(show (0 : ℝ) ≤ t by linarith [ht.1, (show (0:ℝ) ≤ 1 / 10 ^ 5 by positivity)])]⟩
    have h4 : |t| ≤ 2 := abs_le.2 ⟨by linarith [ht.1, (show (0:ℝ) ≤ 1 / 10 ^ 5 by positivity)], ht.2⟩
    calc |(1 - t) * (x ⬝ᵥ (X - Z) *ᵥ x) + t * (x ⬝ᵥ E *ᵥ x)| ≤ |(1 - t) * (x ⬝ᵥ (X - Z) *ᵥ x)| + |t * (x ⬝ᵥ E *ᵥ x)| := abs_add_le _ _
      _ = |1 - t| * |x ⬝ᵥ (X - Z) *ᵥ x| + |t| * |x ⬝ᵥ E *ᵥ x| := by rw [abs_mul, abs_mul]
      _ ≤ 1 * (d * (x ⬝ᵥ x)) + 2 * (d / 4 * (x ⬝ᵥ x)) :=
          add_le_add (mul_le_mul h3 h1 (abs_nonneg _) zero_le_one) (mul_le_mul h4 h2 (abs_nonneg _) zero_le_two)
      _ = 3 / 2 * d * (x ⬝ᵥ x) := by ring
  have hP' := falls_near hX's hZ hBs hQ hp hb (show 0 ≤ 3 / 2 * d by positivity) hQp hBb hD'a (by nlinarith [mul_nonneg (mul_nonneg hp hb) hd])
  refine ⟨hX's, hP', hrt, fun x => ?_, hD'a⟩
  obtain ⟨lo, hi⟩ := care_accuracy hB hX's hZ hsol hP' hQ hrt x
  rw [smul_mulVec, dotProduct_smul, smul_eq_mul] at lo
  have hq := (abs_le.1 (hQp x)).2
  have hρ : 0 ≤ Real.sqrt n * (25 / 16 * b * d ^ 2) := by positivity
  have h1 := mul_le_mul_of_nonneg_left hq hρ
  have h2 : 0 ≤ Real.sqrt n * (b * d ^ 2) * (p * (x ⬝ᵥ x)) := by
    have := self_nonneg x
    positivity
  rw [abs_le]
  constructor <;> nlinarith

/-- **C233. Quadratic convergence.** Let `Z` be a stabilising solution of the Riccati equation and let `Q` be a Lyapunov function of its closed loop of size
at most `p`. If the iteration starts from a symmetric matrix within `d` of `Z`, with `8 p b √n d ≤ 1`, where `b` bounds `B`, then after `k` steps, with the
steps chosen by the line search, it is within `(4 p b √n d)^(2^k) / (4 p b √n)`, and the residual of every iterate after the first step is small. -/
theorem newton_quadratic (hs : SolveOk e) (hroots : RootsOk e) {A B C Z Q : Matrix (Fin n) (Fin n) ℝ} (hB : B.PosSemidef) (hC : Cᵀ = C)
    (hZ : Zᵀ = Z) (hsol : SolvesCare A B C Z) (hQ : Falls (A - B * Z) Q) {p b : ℝ} (hn : 0 < n) (hp : 0 < p) (hb : 0 < b) (hQp : SizeLe Q p)
    (hBb : SizeLe B b) : ∀ (k : ℕ) (X Y : Matrix (Fin n) (Fin n) ℝ) (d : ℝ), Xᵀ = X → 0 ≤ d → SizeLe (X - Z) d → 8 * (p * b * Real.sqrt n * d) ≤ 1 →
      (∀ W, Reach e A B C X W → RealAt e A B W) → Steps e A B C k X Y →
      Yᵀ = Y ∧ Falls (A - B * Y) ((2 : ℝ) • Q) ∧ SizeLe (Y - Z) ((4 * p * b * Real.sqrt n * d) ^ 2 ^ k / (4 * p * b * Real.sqrt n)) := by
  have hsq : (1 : ℝ) ≤ Real.sqrt n := by
    rw [show (1 : ℝ) = Real.sqrt 1 by simp]
    exact Real.sqrt_le_sqrt (by exact_mod_cast hn)
  have hq0 : 0 < 4 * p * b * Real.sqrt n := by positivity
  intro k
  induction k with
  | zero =>
    intro X Y d hX hd hDd hsmall hreal hst
    obtain rfl : X = Y := hst
    have hpb : 0 ≤ p * b * d := by positivity
    refine ⟨hX, falls_near hX hZ (symm_of_psd hB) hQ hp.le hb.le hd hQp hBb hDd (by nlinarith), size_le_of hDd ?_⟩
    rw [pow_zero, pow_one, mul_div_cancel_left₀ _ hq0.ne']
  | succ k ih =>
    intro X Y d hX hd hDd hsmall hreal hst
    obtain ⟨X', err, h1, h2⟩ := hst
    have hpb : 0 ≤ p * b * d := by positivity
    obtain ⟨a1, -, -, a4, -⟩ := step_quadratic e hs hroots hB hC hX hZ hsol hQ hp.le hb.le hd hQp hBb hDd (by nlinarith) (hreal X .start) h1
    have hd' : 0 ≤ 4 * p * b * Real.sqrt n * d ^ 2 := by positivity
    have hle : 4 * p * b * Real.sqrt n * d ^ 2 ≤ d / 2 := by nlinarith
    obtain ⟨b1, b2, b3⟩ := ih X' Y _ a1 hd' a4 (by
      have : 8 * (p * b * Real.sqrt n * (4 * p * b * Real.sqrt n * d ^ 2)) ≤ 8 * (p * b * Real.sqrt n * (d / 2)) :=
        mul_le_mul_of_nonneg_left (mul_le_mul_of_nonneg_left hle (by positivity)) (by norm_num)
      have h0 : 0 ≤ p * b * Real.sqrt n * d := by positivity
      linarith) (fun W hW => hreal W (hW.tail e h1)) h2
    refine ⟨b1, b2, ?_⟩
    have e1 : (4 * p * b * Real.sqrt n * (4 * p * b * Real.sqrt n * d ^ 2)) ^ 2 ^ k = (4 * p * b * Real.sqrt n * d) ^ 2 ^ (k + 1) := by
      rw [show 4 * p * b * Real.sqrt n * (4 * p * b * Real.sqrt n * d ^ 2) = (4 * p * b * Real.sqrt n * d) ^ 2 by ring, ← pow_mul, pow_succ, mul_comm (2 ^ k) 2]
    rwa [e1] at b3

/-- **C233. What the solver returns near a solution.** With `k` passes allowed, the matrix that is returned is symmetric, stabilises, and is within
`p / 100000` of the solution, or within the bound of the quadratic convergence if all `k` passes were used. -/
theorem newton_returns_near (hs : SolveOk e) (hroots : RootsOk e) {A B C Z Q : Matrix (Fin n) (Fin n) ℝ} (hB : B.PosSemidef) (hC : Cᵀ = C)
    (hZ : Zᵀ = Z) (hsol : SolvesCare A B C Z) (hQ : Falls (A - B * Z) Q) {p b : ℝ} (hn : 0 < n) (hp : 0 < p) (hb : 0 < b) (hQp : SizeLe Q p)
    (hBb : SizeLe B b) : ∀ (k : ℕ) (X Y : Matrix (Fin n) (Fin n) ℝ) (d : ℝ), Xᵀ = X → 0 ≤ d → SizeLe (X - Z) d → 8 * (p * b * Real.sqrt n * d) ≤ 1 →
      (∀ W, Reach e A B C X W → RealAt e A B W) → newton e k A B C X = some Y →
      Yᵀ = Y ∧ Hurwitz (A - B * Y) ∧ Falls (A - B * Y) ((2 : ℝ) • Q) ∧
        SizeLe (Y - Z) (max (p / 10 ^ 5) ((4 * p * b * Real.sqrt n * d) ^ 2 ^ k / (4 * p * b * Real.sqrt n))) := by
  have hsq : (1 : ℝ) ≤ Real.sqrt n := by
    rw [show (1 : ℝ) = Real.sqrt 1 by simp]
    exact Real.sqrt_le_sqrt (by exact_mod_cast hn)
  have hq0 : 0 < 4 * p * b * Real.sqrt n := by positivity
  intro k
  induction k with
  | zero =>
    intro X Y d hX hd hDd hsmall hreal h
    simp only [newton, newtonLoop, Option.some.injEq] at h
    subst h
    obtain ⟨a1, a2, a3⟩ := newton_quadratic e hs hroots hB hC hZ hsol hQ hn hp hb hQp hBb 0 X X d hX hd hDd hsmall hreal rfl
    exact ⟨a1, falls_hurwitz a2, a2, size_le_of a3 (le_max_right _ _)⟩
  | succ k ih =>
    intro X Y d hX hd hDd hsmall hreal h
    unfold newton at h
    rw [newtonLoop] at h
    have hpb : 0 ≤ p * b * d := by positivity
    have hsm : 8 * (p * b * d) ≤ 1 := by nlinarith
    rcases hst : newtonStep e A B C X with _ | ⟨X1, err⟩
    · rw [hst] at h; simp at h
    rw [hst] at h
    simp only at h
    by_cases htol : 1 / 10 ^ 5 < err
    · rw [if_pos htol] at h
      obtain ⟨a1, -, -, a4, -⟩ := step_quadratic e hs hroots hB hC hX hZ hsol hQ hp.le hb.le hd hQp hBb hDd hsm (hreal X .start) hst
      have hd' : 0 ≤ 4 * p * b * Real.sqrt n * d ^ 2 := by positivity
      have hle : 4 * p * b * Real.sqrt n * d ^ 2 ≤ d / 2 := by nlinarith
      obtain ⟨b1, b2, b3, b4⟩ := ih X1 Y _ a1 hd' a4 (by
        have : 8 * (p * b * Real.sqrt n * (4 * p * b * Real.sqrt n * d ^ 2)) ≤ 8 * (p * b * Real.sqrt n * (d / 2)) :=
          mul_le_mul_of_nonneg_left (mul_le_mul_of_nonneg_left hle (by positivity)) (by norm_num)
        have h0 : 0 ≤ p * b * Real.sqrt n * d := by positivity
        linarith) (fun W hW => hreal W (hW.tail e hst)) h
      refine ⟨b1, b2, b3, ?_⟩
      have e1 : (4 * p * b * Real.sqrt n * (4 * p * b * Real.sqrt n * d ^ 2)) ^ 2 ^ k = (4 * p * b * Real.sqrt n * d) ^ 2 ^ (k + 1) := by
        rw [show 4 * p * b * Real.sqrt n * (4 * p * b * Real.sqrt n * d ^ 2) = (4 * p * b * Real.sqrt n * d) ^ 2 by ring, ← pow_mul, pow_succ, mul_comm (2 ^ k) 2]
      rwa [e1] at b4
    · rw [if_neg htol, Option.some.injEq] at h
      subst h
      -- the residual of the iterate before this step is small, so it was close already
      have hP := falls_near hX hZ (symm_of_psd hB) hQ hp.le hb.le hd hQp hBb hDd (by linarith)
      have hst' := falls_hurwitz hP
      have hr := hreal X .start
      have hg : GoodAt e A B X := ⟨hr.1, stable_regular e _ hr.1 hr.2 hst', hr.2⟩
      obtain ⟨-, herr, -⟩ := newtonStep_best e hs hroots A B C X hg hX (symm_of_psd hB) hC X1 err hst
      have hres : Real.sqrt (sqNorm (residual A B C X)) ≤ 1 / 10 ^ 5 := herr ▸ not_lt.1 htol
      have hclose : SizeLe (X - Z) (2 * p / 10 ^ 5) := fun x => by
        obtain ⟨lo, hi⟩ := care_accuracy hB hX hZ hsol hP hQ hres x
        rw [smul_mulVec, dotProduct_smul, smul_eq_mul] at lo
        have h1 := (abs_le.1 (hQp x)).2
        have h2 := mul_nonneg hp.le (self_nonneg x)
        rw [abs_le]
        constructor <;> linarith
      have hm : SizeLe (X - Z) (min d (2 * p / 10 ^ 5)) := fun x => by
        rcases min_choice d (2 * p / 10 ^ 5) with h | h <;> rw [h]
        · exact hDd x
        · exact hclose x
      have hm0 : 0 ≤ min d (2 * p / 10 ^ 5) := le_min hd (by positivity)
      have hmd := min_le_left d (2 * p / 10 ^ 5)
      have hmp := min_le_right d (2 * p / 10 ^ 5)
      generalize min d (2 * p / 10 ^ 5) = m at hm hm0 hmd hmp
      have hpm : p * b * m ≤ p * b * d := mul_le_mul_of_nonneg_left hmd (by positivity)
      obtain ⟨a1, a2, -, a4, -⟩ := step_quadratic e hs hroots hB hC hX hZ hsol hQ hp.le hb.le hm0 hQp hBb hm (by linarith) hr hst
      refine ⟨a1, falls_hurwitz a2, a2, size_le_of a4 (le_max_of_le_left ?_)⟩
      have h3 : p * b * Real.sqrt n * m ≤ 1 / 8 := by
        have : p * b * Real.sqrt n * m ≤ p * b * Real.sqrt n * d := mul_le_mul_of_nonneg_left hmd (by positivity)
        linarith
      have h4 := mul_le_mul_of_nonneg_right h3 hm0
      have h5 : 4 * p * b * Real.sqrt n * m ^ 2 = 4 * (p * b * Real.sqrt n * m * m) := by ring
      rw [h5]
      linarith

/-- The conditions hold for the scalar equation `1 - x² = 0` from the guess 5/4, and the solver returns a matrix there. -/
example : (1 : Matrix (Fin 1) (Fin 1) ℝ).PosSemidef ∧ SolvesCare (0 : Matrix (Fin 1) (Fin 1) ℝ) 1 1 1 ∧
    Falls ((0 : Matrix (Fin 1) (Fin 1) ℝ) - 1 * 1) ((1 / 2 : ℝ) • 1) ∧ SizeLe ((1 / 2 : ℝ) • (1 : Matrix (Fin 1) (Fin 1) ℝ)) (1 / 2) ∧
    SizeLe (1 : Matrix (Fin 1) (Fin 1) ℝ) 1 ∧ SizeLe ((5 / 4 : ℝ) • (1 : Matrix (Fin 1) (Fin 1) ℝ) - 1) (1 / 4) ∧
    8 * ((1 / 2 : ℝ) * 1 * Real.sqrt (1 : ℕ) * (1 / 4)) ≤ 1 ∧ (∀ W : Matrix (Fin 1) (Fin 1) ℝ, RealAt demo 0 1 W) ∧
    ∃ Y : Matrix (Fin 1) (Fin 1) ℝ, newton demo 1 0 1 1 ((5 / 4 : ℝ) • 1) = some Y := by
  have ht : ∀ X : Matrix (Fin 1) (Fin 1) ℝ, Xᵀ = X := fun X => by
    ext i j; rw [Matrix.transpose_apply, Subsingleton.elim i j]
  have hres : ∀ X : Matrix (Fin 1) (Fin 1) ℝ, residual 0 1 1 X 0 0 = 1 - X 0 0 * X 0 0 := by
    intro X
    simp [residual, Matrix.mul_apply]; ring
  refine ⟨Matrix.PosSemidef.one, ?_, ⟨ht _, fun x hx => ?_, fun x => ?_⟩, fun x => ?_, fun x => ?_, fun x => ?_, by norm_num,
    fun W => ⟨demo_schur _, demo_real_one _⟩, ?_⟩
  · rw [← residual_zero_iff, one_eq_iff, hres]; simp
  · have := self_pos hx
    rw [smul_mulVec, one_mulVec, dotProduct_smul, smul_eq_mul]; linarith
  · rw [smul_mulVec, one_mulVec, Matrix.one_mul, zero_sub, neg_mulVec, one_mulVec, dotProduct_smul, dotProduct_neg, smul_eq_mul]; linarith
  · rw [smul_mulVec, one_mulVec, dotProduct_smul, smul_eq_mul, abs_of_nonneg (by have := self_nonneg x; positivity)]
  · rw [one_mulVec, abs_of_nonneg (self_nonneg x), one_mul]
  · have e1 : x ⬝ᵥ ((5 / 4 : ℝ) • (1 : Matrix (Fin 1) (Fin 1) ℝ) - 1) *ᵥ x = 1 / 4 * (x ⬝ᵥ x) := by
      rw [sub_mulVec, smul_mulVec, one_mulVec, dotProduct_sub, dotProduct_smul, smul_eq_mul]; ring
    rw [e1, abs_of_nonneg (by have := self_nonneg x; positivity)]
  · obtain ⟨X0, hX0⟩ : ∃ X0 : Matrix (Fin 1) (Fin 1) ℝ, X0 = (5 / 4 : ℝ) • 1 := ⟨_, rfl⟩
    have h00 : X0 0 0 = 5 / 4 := by rw [hX0]; simp
    rw [← hX0]
    have good : GoodAt demo 0 1 X0 := by
      refine ⟨demo_schur _, demo_regular_one _ ?_, demo_real_one _⟩
      have : X0 0 0 ≠ 0 := by rw [h00]; norm_num
      simpa using this
    have hd' : direction demo 0 1 1 X0 0 0 = -9 / 40 := by
      have hH0 := congrFun (congrFun (direction_solves demo demo_solve 0 1 1 X0 good) 0) 0
      rw [ht] at hH0
      simp only [zero_sub, Matrix.one_mul, Matrix.neg_apply, Matrix.add_apply, Matrix.mul_apply, Finset.univ_unique, Fin.default_eq_zero,
        Finset.sum_singleton, hres] at hH0
      rw [h00] at hH0
      linarith
    have hc : 0 < (direction demo 0 1 1 X0 * 1 * direction demo 0 1 1 X0 * (direction demo 0 1 1 X0 * 1 * direction demo 0 1 1 X0)).trace := by
      simp [Matrix.trace, Matrix.mul_apply, hd']
    obtain ⟨t, h1, -, -⟩ := lineSearch_minimises demo demo_roots (residual 0 1 1 X0 * residual 0 1 1 X0).trace
      (residual 0 1 1 X0 * (direction demo 0 1 1 X0 * 1 * direction demo 0 1 1 X0)).trace _ hc
    have hst : newtonStep demo 0 1 1 X0 = some (X0 + t • direction demo 0 1 1 X0, frob (residual 0 1 1 X0)) := by
      simp only [newtonStep, h1]
    refine ⟨X0 + t • direction demo 0 1 1 X0, ?_⟩
    unfold newton
    rw [newtonLoop, hst]
    simp only [newtonLoop]
    split <;> rfl

/-- The feedback of the guess 5/4 has a Lyapunov function and the cost 41/40, which is above the optimal cost 1 and below the guess. -/
example : Falls ((0 : Matrix (Fin 1) (Fin 1) ℝ) - 1 * ((5 / 4 : ℝ) • 1)) ((2 / 5 : ℝ) • 1) ∧
    CostOf ((0 : Matrix (Fin 1) (Fin 1) ℝ) - 1 * ((5 / 4 : ℝ) • 1)) (1 + ((5 / 4 : ℝ) • 1) * 1 * ((5 / 4 : ℝ) • 1)) ((41 / 40 : ℝ) • 1) := by
  have ht : ∀ X : Matrix (Fin 1) (Fin 1) ℝ, Xᵀ = X := fun X => by
    ext i j; rw [Matrix.transpose_apply, Subsingleton.elim i j]
  refine ⟨⟨ht _, fun x hx => ?_, fun x => ?_⟩, ht _, ?_⟩
  · have := self_pos hx
    rw [smul_mulVec, one_mulVec, dotProduct_smul, smul_eq_mul]; linarith
  · rw [smul_mulVec, one_mulVec, Matrix.one_mul, zero_sub, neg_mulVec, smul_mulVec, one_mulVec, dotProduct_smul, dotProduct_neg, dotProduct_smul,
      smul_eq_mul, smul_eq_mul]
    linarith
  · rw [ht, one_eq_iff]
    simp
    norm_num

end PolyMPC.Lqr
