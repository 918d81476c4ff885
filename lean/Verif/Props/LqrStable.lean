import Verif.Props.LqrGain
import Verif.Lemmas.Lyapunov

/-!
# Stability of the closed loops of the Riccati iteration (C176)
-/

set_option linter.unusedSectionVars false
set_option linter.unusedVariables false

namespace PolyMPC.Lqr
open Matrix Spec Set

variable (e : Ext) {n : ℕ}

theorem symm_of_psd {B : Matrix (Fin n) (Fin n) ℝ} (hB : B.PosSemidef) : Bᵀ = B := by simpa using hB.isHermitian.eq

theorem quad_nonneg {B : Matrix (Fin n) (Fin n) ℝ} (hB : B.PosSemidef) (x : Fin n → ℝ) : 0 ≤ x ⬝ᵥ B *ᵥ x := by
  have := hB.dotProduct_mulVec_nonneg x
  rwa [star_trivial] at this

theorem quad_zero_iff {B : Matrix (Fin n) (Fin n) ℝ} (hB : B.PosSemidef) (x : Fin n → ℝ) : x ⬝ᵥ B *ᵥ x = 0 ↔ B *ᵥ x = 0 := by
  have := hB.dotProduct_mulVec_zero_iff x
  rwa [star_trivial] at this

theorem bil_symm {N : Matrix (Fin n) (Fin n) ℝ} (hN : Nᵀ = N) (x y : Fin n → ℝ) : x ⬝ᵥ N *ᵥ y = y ⬝ᵥ N *ᵥ x := by
  rw [Matrix.dotProduct_mulVec, ← hN, Matrix.vecMul_transpose, hN, dotProduct_comm]

/-- The derivative of `x' N x` along `L` -/
theorem quad_lyap {N : Matrix (Fin n) (Fin n) ℝ} (hN : Nᵀ = N) (L : Matrix (Fin n) (Fin n) ℝ) (x : Fin n → ℝ) :
    x ⬝ᵥ (Lᵀ * N + N * L) *ᵥ x = 2 * (x ⬝ᵥ N *ᵥ (L *ᵥ x)) := by
  have h2 : x ⬝ᵥ (Lᵀ * N) *ᵥ x = x ⬝ᵥ N *ᵥ (L *ᵥ x) := by
    rw [← Matrix.mulVec_mulVec, Matrix.dotProduct_mulVec, Matrix.vecMul_transpose, bil_symm hN]
  rw [Matrix.add_mulVec, dotProduct_add, h2, Matrix.mulVec_mulVec]; ring

theorem quad_congr (B Z : Matrix (Fin n) (Fin n) ℝ) (x : Fin n → ℝ) : x ⬝ᵥ (Zᵀ * B * Z) *ᵥ x = (Z *ᵥ x) ⬝ᵥ B *ᵥ (Z *ᵥ x) := by
  rw [← Matrix.mulVec_mulVec, ← Matrix.mulVec_mulVec, Matrix.dotProduct_mulVec, Matrix.vecMul_transpose]

/-! ### Schur form of a stable matrix -/

/-- The diagonal entries of a triangular form are eigenvalues. -/
theorem triangular_det {M T U : Matrix (Fin n) (Fin n) ℝ} (hU : U * Uᵀ = 1) (hM : M = U * T * Uᵀ) (ht : ∀ i j : Fin n, j < i → T i j = 0) (i : Fin n) :
    (M - T i i • (1 : Matrix (Fin n) (Fin n) ℝ)).det = 0 := by
  have : M - T i i • (1 : Matrix (Fin n) (Fin n) ℝ) = U * (T - T i i • (1 : Matrix (Fin n) (Fin n) ℝ)) * Uᵀ := by
    rw [Matrix.mul_sub, Matrix.sub_mul, Matrix.mul_smul, Matrix.mul_one, Matrix.smul_mul, hU, hM]
  rw [this, Matrix.det_mul, Matrix.det_mul]
  have h0 : (T - T i i • (1 : Matrix (Fin n) (Fin n) ℝ)).det = 0 := by
    rw [Matrix.det_of_isUpperTriangular]
    · refine Finset.prod_eq_zero (Finset.mem_univ i) ?_
      simp
    · intro a b hab
      have hab' : b < a := hab
      rw [Matrix.sub_apply, ht a b hab', Matrix.smul_apply, Matrix.one_apply_ne hab'.ne', smul_zero, sub_zero]
  rw [h0]; ring

theorem eig_of_det {M : Matrix (Fin n) (Fin n) ℝ} {c : ℝ} (h : (M - c • (1 : Matrix (Fin n) (Fin n) ℝ)).det = 0) : ∃ v : Fin n → ℝ, v ≠ 0 ∧ M *ᵥ v = c • v := by
  obtain ⟨v, hv, h⟩ := Matrix.exists_mulVec_eq_zero_iff.2 h
  refine ⟨v, hv, ?_⟩
  rwa [Matrix.sub_mulVec, Matrix.smul_mulVec, Matrix.one_mulVec, sub_eq_zero] at h

theorem schur_diag_eig (L : Matrix (Fin n) (Fin n) ℝ) (hA : SchurOk e Lᵀ) (ht : RealSpectrum e Lᵀ) (i : Fin n) :
    ∃ v : Fin n → ℝ, v ≠ 0 ∧ L *ᵥ v = (e.schur Lᵀ).1 i i • v := by
  refine eig_of_det ?_
  rw [← Matrix.det_transpose, Matrix.transpose_sub, Matrix.transpose_smul, Matrix.transpose_one]
  exact triangular_det hA.1 hA.2 ht i

theorem schur_diag_neg (L : Matrix (Fin n) (Fin n) ℝ) (hA : SchurOk e Lᵀ) (ht : RealSpectrum e Lᵀ) (hL : Hurwitz L) (i : Fin n) :
    (e.schur Lᵀ).1 i i < 0 := by
  obtain ⟨v, hv, h⟩ := schur_diag_eig e L hA ht i
  refine (hurwitz_iff L).1 hL _ 0 v 0 (Or.inl hv) ?_ ?_
  · rw [h, smul_zero, sub_zero]
  · rw [Matrix.mulVec_zero, zero_smul, smul_zero, add_zero]

/-- A stable matrix with real eigenvalues never meets a singular factor in `lyapunov`. -/
theorem stable_regular (L : Matrix (Fin n) (Fin n) ℝ) (hA : SchurOk e Lᵀ) (ht : RealSpectrum e Lᵀ) (hL : Hurwitz L) : Regular e Lᵀ := by
  rw [regular_iff e _ ht]
  intro i j
  exact (add_neg (schur_diag_neg e L hA ht hL i) (schur_diag_neg e L hA ht hL j)).ne

theorem certificate_of_triangular {L T U : Matrix (Fin n) (Fin n) ℝ} (hU : U * Uᵀ = 1) (hA : Lᵀ = U * T * Uᵀ) (ht : ∀ i j : Fin n, j < i → T i j = 0)
    (hneg : ∀ i, T i i < 0) :
    ∃ P : Matrix (Fin n) (Fin n) ℝ, Pᵀ = P ∧ (∀ x : Fin n → ℝ, x ≠ 0 → 0 < x ⬝ᵥ P *ᵥ x) ∧ ∀ x : Fin n → ℝ, x ≠ 0 → x ⬝ᵥ P *ᵥ (L *ᵥ x) < 0 := by
  have hU' := orth_left hU
  have hLT : L = U * Tᵀ * Uᵀ := by
    have := congrArg Matrix.transpose hA
    rw [Matrix.transpose_transpose] at this
    rw [this]
    simp only [Matrix.transpose_mul, Matrix.transpose_transpose, Matrix.mul_assoc]
  obtain ⟨d, hd, hS⟩ := triangular_certificate Tᵀ (fun i j hij => ht j i hij) (fun i => hneg i)
  have hy : ∀ x : Fin n → ℝ, x ≠ 0 → Uᵀ *ᵥ x ≠ 0 := by
    intro x hx h
    apply hx
    have := congrArg (fun y => U *ᵥ y) h
    simpa [Matrix.mulVec_mulVec, hU] using this
  have hq : ∀ (M : Matrix (Fin n) (Fin n) ℝ) (x : Fin n → ℝ), x ⬝ᵥ (U * M * Uᵀ) *ᵥ x = (Uᵀ *ᵥ x) ⬝ᵥ M *ᵥ (Uᵀ *ᵥ x) := by
    intro M x
    have := quad_congr M Uᵀ x
    rwa [Matrix.transpose_transpose] at this
  refine ⟨U * Matrix.diagonal d * Uᵀ, ?_, ?_, ?_⟩
  · simp only [Matrix.transpose_mul, Matrix.transpose_transpose, Matrix.diagonal_transpose, Matrix.mul_assoc]
  · intro x hx
    rw [hq]
    obtain ⟨i, hi⟩ := Function.ne_iff.1 (hy x hx)
    generalize Uᵀ *ᵥ x = y at hi
    unfold dotProduct
    refine Finset.sum_pos' (fun j _ => ?_) ⟨i, Finset.mem_univ i, ?_⟩
    · rw [Matrix.mulVec_diagonal]
      nlinarith [hd j, mul_self_nonneg (y j), mul_nonneg (hd j).le (mul_self_nonneg (y j))]
    · rw [Matrix.mulVec_diagonal]
      have : 0 < y i * y i := mul_self_pos.2 hi
      nlinarith [mul_pos (hd i) this]
  · intro x hx
    have h1 := hS _ (hy x hx)
    have h2 : x ⬝ᵥ (U * Matrix.diagonal d * Uᵀ) *ᵥ (L *ᵥ x) = (Uᵀ *ᵥ x) ⬝ᵥ (Matrix.diagonal d * Tᵀ) *ᵥ (Uᵀ *ᵥ x) := by
      rw [Matrix.mulVec_mulVec, hLT, sandwich hU', hq]
    rw [h2]
    refine lt_of_eq_of_lt ?_ h1
    generalize Uᵀ *ᵥ x = y
    simp only [dotProduct, mulVec, Matrix.diagonal_mul, Finset.mul_sum]
    refine Finset.sum_congr rfl fun i _ => Finset.sum_congr rfl fun j _ => ?_
    ring

/-- A stable matrix with a triangular Schur form has a quadratic Lyapunov function. -/
theorem stable_certificate (L : Matrix (Fin n) (Fin n) ℝ) (hA : SchurOk e Lᵀ) (ht : RealSpectrum e Lᵀ) (hL : Hurwitz L) :
    ∃ P : Matrix (Fin n) (Fin n) ℝ, Pᵀ = P ∧ (∀ x : Fin n → ℝ, x ≠ 0 → 0 < x ⬝ᵥ P *ᵥ x) ∧ ∀ x : Fin n → ℝ, x ≠ 0 → x ⬝ᵥ P *ᵥ (L *ᵥ x) < 0 :=
  certificate_of_triangular hA.1 hA.2 ht (schur_diag_neg e L hA ht hL)

/-! ### One step -/

theorem eig_form {N : Matrix (Fin n) (Fin n) ℝ} (hN : Nᵀ = N) {L : Matrix (Fin n) (Fin n) ℝ} {a b : ℝ} {x y : Fin n → ℝ} (hx : L *ᵥ x = a • x - b • y)
    (hy : L *ᵥ y = b • x + a • y) : x ⬝ᵥ N *ᵥ (L *ᵥ x) + y ⬝ᵥ N *ᵥ (L *ᵥ y) = a * (x ⬝ᵥ N *ᵥ x + y ⬝ᵥ N *ᵥ y) := by
  rw [hx, hy, Matrix.mulVec_sub, Matrix.mulVec_add, Matrix.mulVec_smul, Matrix.mulVec_smul, Matrix.mulVec_smul, Matrix.mulVec_smul, dotProduct_sub,
    dotProduct_add, dotProduct_smul, dotProduct_smul, dotProduct_smul, dotProduct_smul, bil_symm hN y x]
  simp only [smul_eq_mul]
  ring

/-- A step of any length in (0, 2] along the Newton direction from a stabilising symmetric matrix leads to a stabilising matrix. -/
theorem step_stable {A B C X H P : Matrix (Fin n) (Fin n) ℝ} (hB : B.PosSemidef) (hC : C.PosSemidef) (hdet : Detectable A C) (hX : Xᵀ = X) (hHs : Hᵀ = H)
    (hH : (A - B * X)ᵀ * H + H * (A - B * X) = -residual A B C X) (hPs : Pᵀ = P) (hP : ∀ x : Fin n → ℝ, x ≠ 0 → 0 < x ⬝ᵥ P *ᵥ x)
    (hPL : ∀ x : Fin n → ℝ, x ≠ 0 → x ⬝ᵥ P *ᵥ ((A - B * X) *ᵥ x) < 0) {t : ℝ} (ht0 : 0 < t) (ht2 : t ≤ 2) : Hurwitz (A - B * (X + t • H)) := by
  have hBs := symm_of_psd hB
  set N := X + H with hNdef
  have hN : Nᵀ = N := by rw [hNdef, Matrix.transpose_add, hX, hHs]
  have hHN : H = N - X := by rw [hNdef]; abel
  have hlyap : (A - B * X)ᵀ * N + N * (A - B * X) = -C - Xᵀ * B * X := by
    rw [hNdef, Matrix.mul_add, Matrix.add_mul,
      show (A - B * X)ᵀ * X + (A - B * X)ᵀ * H + (X * (A - B * X) + H * (A - B * X)) = (A - B * X)ᵀ * X + X * (A - B * X) + ((A - B * X)ᵀ * H + H * (A - B * X)) by abel, hH]
    unfold residual
    simp only [Matrix.transpose_sub, Matrix.transpose_mul, hX, hBs, Matrix.mul_sub, Matrix.sub_mul, Matrix.mul_assoc]
    abel
  have hNpsd : ∀ x : Fin n → ℝ, 0 ≤ x ⬝ᵥ N *ᵥ x := by
    refine nonneg_of_decrease hPs hP hPL hN fun x => ?_
    have h1 := quad_lyap hN (A - B * X) x
    rw [hlyap, Matrix.sub_mulVec, Matrix.neg_mulVec, dotProduct_sub, dotProduct_neg, quad_congr] at h1
    have h2 := quad_nonneg hC x
    have h3 := quad_nonneg hB (X *ᵥ x)
    linarith
  have hid : (A - B * (X + t • H))ᵀ * N + N * (A - B * (X + t • H)) = -C - (X - t • N)ᵀ * B * (X - t • N) - (t * (2 - t)) • (Nᵀ * B * N) := by
    have h1 : Aᵀ * N + N * A = -C - X * B * X + X * B * N + N * B * X := by
      have := hlyap
      simp only [Matrix.transpose_sub, Matrix.transpose_mul, hX, hBs, Matrix.mul_sub, Matrix.sub_mul, Matrix.mul_assoc] at this ⊢
      rw [← this]; abel
    have h2 : (A - B * (X + t • H))ᵀ * N + N * (A - B * (X + t • H)) = (Aᵀ * N + N * A) - ((1 - t) • (X * B * N + N * B * X) + (2 * t) • (N * B * N)) := by
      rw [hHN]
      simp only [Matrix.transpose_sub, Matrix.transpose_add, Matrix.transpose_smul, Matrix.transpose_mul, hX, hBs, hN, Matrix.mul_sub, Matrix.sub_mul,
        Matrix.mul_add, Matrix.add_mul, Matrix.mul_smul, Matrix.smul_mul, Matrix.mul_assoc]
      module
    rw [h2, h1]
    simp only [Matrix.transpose_sub, Matrix.transpose_smul, hX, hN, Matrix.mul_sub, Matrix.sub_mul, Matrix.mul_smul, Matrix.smul_mul, Matrix.mul_assoc]
    module
  rw [hurwitz_iff]
  intro a b x y hxy hx hy
  by_contra ha
  rw [not_lt] at ha
  have htt : 0 ≤ t * (2 - t) := mul_nonneg ht0.le (by linarith)
  have hw : ∀ w : Fin n → ℝ, 2 * (w ⬝ᵥ N *ᵥ ((A - B * (X + t • H)) *ᵥ w)) = -(w ⬝ᵥ C *ᵥ w) - ((X - t • N) *ᵥ w) ⬝ᵥ B *ᵥ ((X - t • N) *ᵥ w)
      - t * (2 - t) * ((N *ᵥ w) ⬝ᵥ B *ᵥ (N *ᵥ w)) := by
    intro w
    rw [← quad_lyap hN, hid, Matrix.sub_mulVec, Matrix.sub_mulVec, Matrix.neg_mulVec, Matrix.smul_mulVec, dotProduct_sub, dotProduct_sub, dotProduct_neg,
      dotProduct_smul, quad_congr, quad_congr, smul_eq_mul]
  have hsum := eig_form hN hx hy
  have p1 := mul_nonneg ha (add_nonneg (hNpsd x) (hNpsd y))
  have c1 := quad_nonneg hC x
  have c2 := quad_nonneg hC y
  have b1 := quad_nonneg hB ((X - t • N) *ᵥ x)
  have b2 := quad_nonneg hB ((X - t • N) *ᵥ y)
  have n1 := mul_nonneg htt (quad_nonneg hB (N *ᵥ x))
  have n2 := mul_nonneg htt (quad_nonneg hB (N *ᵥ y))
  have w1 := hw x
  have w2 := hw y
  have key : ∀ w : Fin n → ℝ, w ⬝ᵥ C *ᵥ w = 0 → ((X - t • N) *ᵥ w) ⬝ᵥ B *ᵥ ((X - t • N) *ᵥ w) = 0 → t * (2 - t) * ((N *ᵥ w) ⬝ᵥ B *ᵥ (N *ᵥ w)) = 0 →
      C *ᵥ w = 0 ∧ (A - B * (X + t • H)) *ᵥ w = A *ᵥ w := by
    intro w k1 k2 k3
    have l1 := (quad_zero_iff hC w).1 k1
    have l2 := (quad_zero_iff hB _).1 k2
    have l3 : (t * (2 - t)) • (B *ᵥ (N *ᵥ w)) = 0 := by
      rcases mul_eq_zero.1 k3 with h | h
      · rw [h, zero_smul]
      · rw [(quad_zero_iff hB _).1 h, smul_zero]
    refine ⟨l1, ?_⟩
    rw [Matrix.sub_mulVec, Matrix.smul_mulVec, Matrix.mulVec_sub, Matrix.mulVec_smul] at l2
    have : (A - B * (X + t • H)) *ᵥ w = A *ᵥ w - (1 - t) • (B *ᵥ (X *ᵥ w) - t • (B *ᵥ (N *ᵥ w))) - (t * (2 - t)) • (B *ᵥ (N *ᵥ w)) := by
      rw [hHN, Matrix.sub_mulVec, ← Matrix.mulVec_mulVec, Matrix.add_mulVec, Matrix.smul_mulVec, Matrix.sub_mulVec, Matrix.mulVec_add, Matrix.mulVec_smul,
        Matrix.mulVec_sub]
      module
    rw [this, l2, l3, smul_zero, sub_zero, sub_zero]
  obtain ⟨x1, x2⟩ := key x (by linarith) (by linarith) (by linarith)
  obtain ⟨y1, y2⟩ := key y (by linarith) (by linarith) (by linarith)
  exact Detectable.real hdet hxy (x2 ▸ hx) (y2 ▸ hy) ha ⟨x1, y1⟩

/-! ### All iterates -/

/-- The Schur form of the closed loop is a real triangular one (all its eigenvalues are real). -/
def RealAt (A B X : Matrix (Fin n) (Fin n) ℝ) : Prop := SchurOk e (A - B * X)ᵀ ∧ RealSpectrum e (A - B * X)ᵀ

/-- C176. The Newton iteration from a stabilising symmetric guess, with `B` and `C` positive semidefinite, `C` detecting the unstable part of `A`, exact
decompositions and real eigenvalues at the iterates: every iterate is symmetric, its closed loop is stable, and its Lyapunov equation has no singular
factor. -/
theorem newton_stable (hs : SolveOk e) (hroots : RootsOk e) (A B C X0 : Matrix (Fin n) (Fin n) ℝ) (hB : B.PosSemidef) (hC : C.PosSemidef)
    (hdet : Detectable A C) (hX0 : X0ᵀ = X0) (hst : Hurwitz (A - B * X0)) (hreal : ∀ Y, Reach e A B C X0 Y → RealAt e A B Y)
    (Y : Matrix (Fin n) (Fin n) ℝ) (hY : Reach e A B C X0 Y) : Yᵀ = Y ∧ Hurwitz (A - B * Y) ∧ GoodAt e A B Y := by
  induction hY with
  | start => exact ⟨hX0, hst, (hreal _ .start).1, stable_regular e _ (hreal _ .start).1 (hreal _ .start).2 hst, (hreal _ .start).2⟩
  | @step X X' err hr hstep ih =>
    obtain ⟨ih1, ih2, ih3⟩ := ih
    have hBs := symm_of_psd hB
    have hCs := symm_of_psd hC
    obtain ⟨h1, -, H, hH, ⟨t, htI, hX'⟩, -⟩ := newtonStep_best e hs hroots A B C X ih3 ih1 hBs hCs X' err hstep
    have hHd : H = direction e A B C X := by
      refine lyapunov_unique e (A - B * X)ᵀ (-residual A B C X) _ _ ih3.1 ih3.2.1 ih3.2.2 ?_ ?_ <;>
        unfold SolvesLyapunov <;> rw [Matrix.transpose_transpose]
      · exact hH
      · exact direction_solves e hs A B C X ih3
    have hHs : Hᵀ = H := hHd ▸ direction_symm e hs A B C X ih3 ih1 hBs hCs
    obtain ⟨P, p1, p2, p3⟩ := stable_certificate e (A - B * X) ih3.1 ih3.2.2 ih2
    have hst' : Hurwitz (A - B * X') := by
      rw [hX']
      exact step_stable hB hC hdet ih1 hHs hH p1 p2 p3 (lt_of_lt_of_le (by norm_num) htI.1) htI.2
    have hr' := hreal X' (.step hr hstep)
    exact ⟨h1, hst', hr'.1, stable_regular e _ hr'.1 hr'.2 hst', hr'.2⟩

theorem newton_reach (A B C : Matrix (Fin n) (Fin n) ℝ) : ∀ (k : ℕ) (X0 X : Matrix (Fin n) (Fin n) ℝ), newton e k A B C X0 = some X → Reach e A B C X0 X
  | 0, X0, X, h => by
    simp only [newton, newtonLoop, Option.some.injEq] at h
    subst h; exact .start
  | k + 1, X0, X, h => by
    unfold newton at h
    rw [newtonLoop] at h
    rcases hst : newtonStep e A B C X0 with _ | ⟨X1, err⟩
    · rw [hst] at h; simp at h
    · rw [hst] at h
      simp only at h
      by_cases htol : 1 / 10 ^ 5 < err
      · rw [if_pos htol] at h
        exact (newton_reach A B C k X1 X h).tail e hst
      · rw [if_neg htol, Option.some.injEq] at h
        subst h
        exact .step .start hst

/-! ### The guess -/

/-- C176. The symmetrised guess of a stabilising matrix is symmetric and stabilising, when its Lyapunov equation is solved with real eigenvalues. -/
theorem initSym_stable (hs : SolveOk e) (A B X : Matrix (Fin n) (Fin n) ℝ) (hB : B.PosSemidef) (hasym : 1 / 10 ^ 12 < frob (X - Xᵀ)) (hr : RealAt e A B X)
    (hst : Hurwitz (A - B * X)) : (initSym e A B X)ᵀ = initSym e A B X ∧ Hurwitz (A - B * initSym e A B X) := by
  have hBs := symm_of_psd hB
  have hg : GoodAt e A B X := ⟨hr.1, stable_regular e _ hr.1 hr.2 hst, hr.2⟩
  obtain ⟨hsym, -⟩ := initSym_identity e hs A B X hg hBs hasym
  have hcert := initSym_certificate e hs A B X hg hB hasym
  have hsol := lyapunov_solves e hs _ (-(Xᵀ * B * X + (1 / 2 : ℝ) • (1 : Matrix (Fin n) (Fin n) ℝ))) hg.1 hg.2.1 hg.2.2
  have h0 : initSym e A B X = lyapunov e (A - B * X)ᵀ (-(Xᵀ * B * X + (1 / 2 : ℝ) • (1 : Matrix (Fin n) (Fin n) ℝ))) := by
    unfold initSym; rw [if_pos hasym]
  rw [← h0] at hsol
  unfold SolvesLyapunov at hsol
  rw [Matrix.transpose_transpose] at hsol
  obtain ⟨P, p1, p2, p3⟩ := stable_certificate e (A - B * X) hg.1 hg.2.2 hst
  generalize initSym e A B X = Y at *
  have hpsd : ∀ x : Fin n → ℝ, 0 ≤ x ⬝ᵥ Y *ᵥ x := by
    refine nonneg_of_decrease p1 p2 p3 hsym fun x => ?_
    have h1 := quad_lyap hsym (A - B * X) x
    rw [hsol, Matrix.neg_mulVec, Matrix.add_mulVec, Matrix.smul_mulVec, Matrix.one_mulVec, dotProduct_neg, dotProduct_add, dotProduct_smul, quad_congr, smul_eq_mul] at h1
    have h2 := quad_nonneg hB (X *ᵥ x)
    have h3 : 0 ≤ x ⬝ᵥ x := Finset.sum_nonneg fun i _ => mul_self_nonneg _
    linarith
  refine ⟨hsym, (hurwitz_iff _).2 fun a b x y hxy hx hy => ?_⟩
  by_contra ha
  rw [not_lt] at ha
  have hsum := eig_form hsym hx hy
  have p1 := mul_nonneg ha (add_nonneg (hpsd x) (hpsd y))
  have c1 := hcert x
  have c2 := hcert y
  have h3 : ∀ z : Fin n → ℝ, 0 ≤ z ⬝ᵥ z := fun z => Finset.sum_nonneg fun i _ => mul_self_nonneg _
  have h4 : ∀ z : Fin n → ℝ, z ≠ 0 → 0 < z ⬝ᵥ z := fun z hz => by
    obtain ⟨i, hi⟩ := Function.ne_iff.1 hz
    exact Finset.sum_pos' (fun i _ => mul_self_nonneg _) ⟨i, Finset.mem_univ i, mul_self_pos.2 hi⟩
  have : 0 < x ⬝ᵥ x + y ⬝ᵥ y := by
    rcases hxy with h | h
    · exact add_pos_of_pos_of_nonneg (h4 x h) (h3 y)
    · exact add_pos_of_nonneg_of_pos (h3 x) (h4 y h)
  linarith

/-- All eigenvalues of `A` have real part larger than `-β`. -/
def RightOf (A : Matrix (Fin n) (Fin n) ℝ) (β : ℝ) : Prop :=
  ∀ (z : ℂ) (v : Fin n → ℂ), v ≠ 0 → A.map (fun r => (r : ℂ)) *ᵥ v = z • v → 0 < z.re + β

theorem RightOf.real {A : Matrix (Fin n) (Fin n) ℝ} {β : ℝ} (h : RightOf A β) {a : ℝ} {x : Fin n → ℝ} (hx : x ≠ 0) (hA : A *ᵥ x = a • x) : 0 < a + β := by
  refine h ⟨a, 0⟩ _ (complex_ne x 0 (Or.inl hx)) ((map_eq_iff A ⟨a, 0⟩ _).2 ⟨?_, ?_⟩)
  · change A *ᵥ x = a • x - (0 : ℝ) • (0 : Fin n → ℝ)
    rw [hA, smul_zero, sub_zero]
  · change A *ᵥ (0 : Fin n → ℝ) = (0 : ℝ) • x + a • (0 : Fin n → ℝ)
    rw [Matrix.mulVec_zero, zero_smul, smul_zero, add_zero]

theorem RightOf.det {A : Matrix (Fin n) (Fin n) ℝ} {β : ℝ} (h : RightOf A β) : (A + β • (1 : Matrix (Fin n) (Fin n) ℝ)).det ≠ 0 := by
  intro h0
  rw [show A + β • (1 : Matrix (Fin n) (Fin n) ℝ) = A - (-β) • (1 : Matrix (Fin n) (Fin n) ℝ) by rw [neg_smul, sub_neg_eq_add]] at h0
  obtain ⟨v, hv, hA⟩ := eig_of_det h0
  have := h.real hv hA
  linarith

/-- What the first guess needs: exact decompositions, real eigenvalues of `A`, eigenvalues right of `-β`, and a controllability matrix `Z` that
`pinv` inverts. -/
structure GuessOk (β : ℝ) (A B : Matrix (Fin n) (Fin n) ℝ) : Prop where
  pos : 0 < β
  right : RightOf A β
  schur : SchurOk e A
  schurShift : SchurOk e ((e.schur A).1 + β • (1 : Matrix (Fin n) (Fin n) ℝ))
  real : RealSpectrum e ((e.schur A).1 + β • (1 : Matrix (Fin n) (Fin n) ℝ))
  svd : ∀ Z, SolvesLyapunov ((e.schur A).1 + β • (1 : Matrix (Fin n) (Fin n) ℝ)) ((2 : ℝ) • ((e.schur A).2ᵀ * B) * ((e.schur A).2ᵀ * B)ᵀ) Z →
      SvdOk e Z ∧ ∀ k, 1 / 10 ^ 6 < (e.svd Z).2.1 k

/-- C176. The first guess is `B' W` with `W` positive definite, its closed loop decays at the rate `β`, so it is stabilising. -/
theorem initRaw_stable (hs : SolveOk e) (β : ℝ) (A B : Matrix (Fin n) (Fin n) ℝ) (hg : GuessOk e β A B) :
    ∃ X W, initRaw e β A B = some X ∧ W.PosDef ∧ X = Bᵀ * W ∧ W * (A - B * X) + (A - B * X)ᵀ * W = -(2 * β) • W ∧ Hurwitz (A - B * X) := by
  have hAM : A + β • (1 : Matrix (Fin n) (Fin n) ℝ) = (e.schur A).2 * ((e.schur A).1 + β • (1 : Matrix (Fin n) (Fin n) ℝ)) * (e.schur A).2ᵀ := by
    obtain ⟨hU, hA⟩ := hg.schur
    rw [Matrix.mul_add, Matrix.add_mul, ← hA, Matrix.mul_smul, Matrix.mul_one, Matrix.smul_mul, hU]
  obtain ⟨V, hV, T, hT, hMT, htri⟩ : ∃ V : Matrix (Fin n) (Fin n) ℝ, V * Vᵀ = 1 ∧ ∃ T : Matrix (Fin n) (Fin n) ℝ,
      (e.schur ((e.schur A).1 + β • (1 : Matrix (Fin n) (Fin n) ℝ))).1 = T ∧
      A + β • (1 : Matrix (Fin n) (Fin n) ℝ) = V * T * Vᵀ ∧ ∀ i j : Fin n, j < i → T i j = 0 := by
    refine ⟨(e.schur A).2 * (e.schur ((e.schur A).1 + β • (1 : Matrix (Fin n) (Fin n) ℝ))).2, ?_, _, rfl, ?_, hg.real⟩
    · rw [Matrix.transpose_mul, Matrix.mul_assoc, ← Matrix.mul_assoc _ _ (e.schur A).2ᵀ, hg.schurShift.1, Matrix.one_mul, hg.schur.1]
    · rw [hAM]
      conv_lhs => rw [hg.schurShift.2]
      simp only [Matrix.transpose_mul, Matrix.mul_assoc]
  have hTpos : ∀ i, 0 < T i i := by
    intro i
    obtain ⟨v, hv, h⟩ := eig_of_det (triangular_det hV hMT htri i)
    have hAv : A *ᵥ v = (T i i - β) • v := by
      rw [Matrix.add_mulVec, Matrix.smul_mulVec, Matrix.one_mulVec] at h
      rw [sub_smul, ← h]; abel
    have := hg.right.real hv hAv
    linarith
  have hreg : Regular e ((e.schur A).1 + β • (1 : Matrix (Fin n) (Fin n) ℝ)) := by
    rw [regular_iff e _ hg.real, hT]
    intro i j
    exact (add_pos (hTpos i) (hTpos j)).ne'
  obtain ⟨X, Y, W, h1, hWY, hYs, hWs, hX, hlyap, hdec⟩ := initRaw_decay e hs β A B hg.schur hg.schurShift hreg hg.real hg.svd
  have hYW : Y * W = 1 := mul_eq_one_comm.1 hWY
  obtain ⟨P, p1, p2, p3⟩ := certificate_of_triangular (L := -(A + β • (1 : Matrix (Fin n) (Fin n) ℝ))ᵀ) (T := -T) hV
    (by rw [Matrix.transpose_neg, Matrix.transpose_transpose, hMT, Matrix.mul_neg, Matrix.neg_mul])
    (fun i j hij => by rw [Matrix.neg_apply, htri i j hij, neg_zero]) (fun i => by rw [Matrix.neg_apply]; exact neg_lt_zero.2 (hTpos i))
  have hYnn : ∀ x : Fin n → ℝ, 0 ≤ x ⬝ᵥ Y *ᵥ x := by
    refine nonneg_of_decrease p1 p2 p3 hYs fun x => ?_
    have h2 := quad_lyap hYs (-(A + β • (1 : Matrix (Fin n) (Fin n) ℝ))ᵀ) x
    rw [Matrix.transpose_neg, Matrix.transpose_transpose, Matrix.neg_mul, Matrix.mul_neg, ← neg_add, hlyap, Matrix.neg_mulVec, dotProduct_neg,
      Matrix.smul_mulVec, dotProduct_smul, smul_eq_mul] at h2
    have h3 : 0 ≤ x ⬝ᵥ (B * Bᵀ) *ᵥ x := by
      rw [← Matrix.mulVec_mulVec, Matrix.dotProduct_mulVec, ← Matrix.mulVec_transpose]
      exact Finset.sum_nonneg fun i _ => mul_self_nonneg _
    linarith
  have hYpsd : Y.PosSemidef := PosSemidef.of_dotProduct_mulVec_nonneg (by rw [IsHermitian, conjTranspose_eq_transpose_of_trivial, hYs]) fun y => by
    rw [star_trivial]; exact hYnn y
  have hWpd : W.PosDef := by
    refine PosDef.of_dotProduct_mulVec_pos (by rw [IsHermitian, conjTranspose_eq_transpose_of_trivial, hWs]) fun x hx => ?_
    rw [star_trivial]
    have hxW : x = Y *ᵥ (W *ᵥ x) := by rw [Matrix.mulVec_mulVec, hYW, Matrix.one_mulVec]
    have h5 : x ⬝ᵥ W *ᵥ x = (W *ᵥ x) ⬝ᵥ Y *ᵥ (W *ᵥ x) := by rw [← hxW, dotProduct_comm]
    rw [h5]
    refine lt_of_le_of_ne (hYnn _) fun h0 => hx ?_
    rw [hxW, (quad_zero_iff hYpsd _).1 h0.symm]
  refine ⟨X, W, h1, hWpd, hX, hdec, (hurwitz_iff _).2 fun a b x y hxy hx hy => ?_⟩
  rw [decay_spectrum β _ W hWpd hdec a b x y hxy hx hy]
  exact neg_lt_zero.2 hg.pos

/-! ### Riccati solver and gain of polymath.cpp -/

/-- The eigenvalue routine lists the real part of every eigenvalue of this matrix. -/
def EigOk (M : Matrix (Fin n) (Fin n) ℝ) : Prop :=
  ∀ (z : ℂ) (v : Fin n → ℂ), v ≠ 0 → M.map (fun r => (r : ℂ)) *ᵥ v = z • v → ∃ i, e.eigRe M i = z.re

theorem shift_rightOf (A : Matrix (Fin (n + 1)) (Fin (n + 1)) ℝ) (hA : SchurOk e A) (heig : EigOk e (e.schur A).1) : RightOf A (shift e (e.schur A).1) := by
  intro z v hv hz
  obtain ⟨hU, hA⟩ := hA
  have hU' := orth_left hU
  have hmap : ∀ M N : Matrix (Fin (n + 1)) (Fin (n + 1)) ℝ, (M * N).map (fun r => (r : ℂ)) = M.map (fun r => (r : ℂ)) * N.map (fun r => (r : ℂ)) :=
    fun M N => Matrix.map_mul (f := Complex.ofRealHom)
  have hone : (1 : Matrix (Fin (n + 1)) (Fin (n + 1)) ℝ).map (fun r => (r : ℂ)) = 1 := Matrix.map_one _ Complex.ofReal_zero Complex.ofReal_one
  have hUc : (e.schur A).2.map (fun r => (r : ℂ)) * (e.schur A).2ᵀ.map (fun r => (r : ℂ)) = 1 := by rw [← hmap, hU, hone]
  have hUc' : (e.schur A).2ᵀ.map (fun r => (r : ℂ)) * (e.schur A).2.map (fun r => (r : ℂ)) = 1 := by rw [← hmap, hU', hone]
  have k1 : (e.schur A).2ᵀ.map (fun r => (r : ℂ)) *ᵥ v ≠ 0 := fun h => hv <| by
    have h2 := congrArg (fun w => (e.schur A).2.map (fun r => (r : ℂ)) *ᵥ w) h
    simp only [Matrix.mulVec_mulVec, hUc, Matrix.one_mulVec, Matrix.mulVec_zero] at h2
    exact h2
  have k2 : (e.schur A).1.map (fun r => (r : ℂ)) *ᵥ ((e.schur A).2ᵀ.map (fun r => (r : ℂ)) *ᵥ v) = z • ((e.schur A).2ᵀ.map (fun r => (r : ℂ)) *ᵥ v) := by
    have hAc : A.map (fun r => (r : ℂ)) = (e.schur A).2.map (fun r => (r : ℂ)) * (e.schur A).1.map (fun r => (r : ℂ)) * (e.schur A).2ᵀ.map (fun r => (r : ℂ)) := by
      rw [← hmap, ← hmap, ← hA]
    rw [← Matrix.mulVec_smul, ← hz, hAc]
    simp only [Matrix.mulVec_mulVec, ← Matrix.mul_assoc, hUc', Matrix.one_mul]
  obtain ⟨i, hi⟩ := heig z _ k1 k2
  have := shift_right e (e.schur A).1 i
  rw [hi] at this
  linarith

/-- C176. `oc::care` with exact decompositions and real eigenvalues throughout: whatever it returns is symmetric and stabilising. -/
theorem care_stabilises (hs : SolveOk e) (hroots : RootsOk e) (A B C : Matrix (Fin (n + 1)) (Fin (n + 1)) ℝ) (hB : B.PosSemidef) (hC : C.PosSemidef)
    (hdet : Detectable A C) (hg : GuessOk e (shift e (e.schur A).1) A B)
    (hraw : ∀ X, initRaw e (shift e (e.schur A).1) A B = some X → Xᵀ = X ∨ 1 / 10 ^ 12 < frob (X - Xᵀ) ∧ RealAt e A B X)
    (hreal : ∀ X0, initCare e (shift e (e.schur A).1) A B = some X0 → ∀ Y, Reach e A B C X0 Y → RealAt e A B Y)
    (S : Matrix (Fin (n + 1)) (Fin (n + 1)) ℝ) (h : carePolymath e A B C = some S) : Sᵀ = S ∧ Hurwitz (A - B * S) := by
  obtain ⟨X, W, h1, -, -, -, hst⟩ := initRaw_stable e hs _ A B hg
  have hinit : initCare e (shift e (e.schur A).1) A B = some (initSym e A B X) := by unfold initCare; rw [h1]
  have h0 : (initSym e A B X)ᵀ = initSym e A B X ∧ Hurwitz (A - B * initSym e A B X) := by
    rcases hraw X h1 with hsym | ⟨has, hr⟩
    · have : initSym e A B X = X := by
        unfold initSym
        rw [if_neg]
        rw [hsym, sub_self]
        simp only [frob, Matrix.zero_apply, mul_zero, Finset.sum_const_zero, Real.sqrt_zero]
        norm_num
      rw [this]; exact ⟨hsym, hst⟩
    · exact initSym_stable e hs A B X hB has hr hst
  unfold carePolymath at h
  rw [hinit] at h
  obtain ⟨r1, r2, -⟩ := newton_stable e hs hroots A B C _ hB hC hdet h0.1 h0.2 (hreal _ hinit) S (newton_reach e A B C 20 _ S h)
  exact ⟨r1, r2⟩

/-- C176. So the gain of `oc::lqr` without cross term stabilises the plant. -/
theorem lqr_stabilises {m : ℕ} (hs : SolveOk e) (hroots : RootsOk e) (F : Matrix (Fin (n + 1)) (Fin (n + 1)) ℝ) (G : Matrix (Fin (n + 1)) (Fin m) ℝ)
    (Q : Matrix (Fin (n + 1)) (Fin (n + 1)) ℝ) (R P : Matrix (Fin m) (Fin m) ℝ) (check : Bool) (K : Matrix (Fin m) (Fin (n + 1)) ℝ)
    (hP : pinv e R = some P) (hPpsd : P.PosSemidef) (hQ : Q.PosSemidef)
    (hdet : Detectable F Q) (hg : GuessOk e (shift e (e.schur F).1) F (G * P * Gᵀ))
    (hraw : ∀ X, initRaw e (shift e (e.schur F).1) F (G * P * Gᵀ) = some X → Xᵀ = X ∨ 1 / 10 ^ 12 < frob (X - Xᵀ) ∧ RealAt e F (G * P * Gᵀ) X)
    (hreal : ∀ X0, initCare e (shift e (e.schur F).1) F (G * P * Gᵀ) = some X0 → ∀ Y, Reach e F (G * P * Gᵀ) Q X0 Y → RealAt e F (G * P * Gᵀ) Y)
    (h : lqrPolymath e F G Q R 0 check = some (.gain K)) : Hurwitz (F - G * K) := by
  unfold lqrPolymath at h
  rw [hP] at h
  simp only at h
  by_cases hc : check = true ∧ weightsOk e Q R (0 : Matrix (Fin (n + 1)) (Fin m) ℝ) ≠ some true
  · rw [if_pos hc] at h; simp at h
  · rw [if_neg hc] at h
    have hD : riccatiData F G Q P (0 : Matrix (Fin (n + 1)) (Fin m) ℝ) = (F, G * P * Gᵀ, Q) := by
      unfold riccatiData
      simp only [Matrix.zero_mul, Matrix.mul_zero, sub_zero, Matrix.transpose_zero, zero_add]
    rw [hD] at h
    rcases hS : carePolymath e F (G * P * Gᵀ) Q with _ | S
    · rw [hS] at h; simp at h
    · rw [hS] at h
      simp only [Option.some.injEq, Gain.gain.injEq] at h
      have hB : (G * P * Gᵀ).PosSemidef := by
        have := hPpsd.mul_mul_conjTranspose_same G
        rwa [conjTranspose_eq_transpose_of_trivial] at this
      obtain ⟨-, h2⟩ := care_stabilises e hs hroots F (G * P * Gᵀ) Q hB hQ hdet hg hraw hreal S hS
      have hK : G * K = G * P * Gᵀ * S := by
        rw [← h]; unfold gain
        rw [Matrix.transpose_zero, add_zero]; simp only [Matrix.mul_assoc]
      rwa [hK]

end PolyMPC.Lqr
