import Verif.Props.LqrGuess
import Mathlib.Analysis.Matrix.Spectrum
import Mathlib.Tactic.NormNum.RealSqrt

/-!
# The LQR of the header on the double integrator (C178)
-/

set_option linter.unusedSectionVars false
set_option linter.unusedVariables false

namespace PolyMPC.Lqr
open Matrix Spec Set

/-! ### Exact decompositions -/

/-- The decompositions of matrices with at most two rows are exact: the linear solver, the Schur form of every matrix (triangular when the eigenvalues
are real), the singular value decomposition of every positive semidefinite matrix. -/
structure ExactTwo (e : Ext) : Prop where
  solve : SolveOk e
  schur : ∀ M : Matrix (Fin 2) (Fin 2) ℝ, SchurOk e M
  real : ∀ M : Matrix (Fin 2) (Fin 2) ℝ, 0 ≤ (M 0 0 - M 1 1) ^ 2 + 4 * (M 0 1 * M 1 0) → RealSpectrum e M
  svd : ∀ {n : ℕ} (Z : Matrix (Fin n) (Fin n) ℝ), n ≤ 2 → Z.PosSemidef → SvdOk e Z

open scoped Classical in
/-- Decompositions chosen among the exact ones where there are any. -/
noncomputable def exactExt : Ext where
  schur {n} A := if h : ∃ p : Matrix (Fin n) (Fin n) ℝ × Matrix (Fin n) (Fin n) ℝ, p.2 * p.2ᵀ = 1 ∧ A = p.2 * p.1 * p.2ᵀ ∧ ∀ i j : Fin n, j < i → p.1 i j = 0
    then h.choose else (A, 1)
  solve M b := M⁻¹ *ᵥ b
  svd {r c} A := if h : ∃ p : Matrix (Fin r) (Fin r) ℝ × (Fin (min r c) → ℝ) × Matrix (Fin c) (Fin c) ℝ, p.1 * p.1ᵀ = 1 ∧ p.2.2 * p.2.2ᵀ = 1 ∧
      (∀ k, 0 ≤ p.2.1 k) ∧ A = Matrix.of fun i j => ∑ k : Fin (min r c), p.1 i (k.castLE (min_le_left r c)) * p.2.1 k * p.2.2 j (k.castLE (min_le_right r c))
    then h.choose else (1, 0, 1)
  roots q := (Polynomial.C (q 0) + Polynomial.C (q 1) * Polynomial.X + Polynomial.C (q 2) * Polynomial.X ^ 2
    + Polynomial.C (q 3) * Polynomial.X ^ 3).roots.toList
  eigRe {n} A := if h : ∃ f : Fin n → ℝ, ∀ (z : ℂ) (v : Fin n → ℂ), v ≠ 0 → A.map (fun r => (r : ℂ)) *ᵥ v = z • v → ∃ i, f i = z.re
    then h.choose else 0

theorem exact_schur {n : ℕ} (A : Matrix (Fin n) (Fin n) ℝ) : SchurOk exactExt A := by
  unfold SchurOk
  by_cases h : ∃ p : Matrix (Fin n) (Fin n) ℝ × Matrix (Fin n) (Fin n) ℝ, p.2 * p.2ᵀ = 1 ∧ A = p.2 * p.1 * p.2ᵀ ∧ ∀ i j : Fin n, j < i → p.1 i j = 0
  · have : exactExt.schur A = h.choose := dif_pos h
    rw [this]
    exact ⟨h.choose_spec.1, h.choose_spec.2.1⟩
  · have : exactExt.schur A = (A, 1) := dif_neg h
    rw [this]
    exact ⟨by rw [Matrix.transpose_one, Matrix.mul_one], by rw [Matrix.transpose_one, Matrix.mul_one, Matrix.one_mul]⟩

theorem exact_real {n : ℕ} (A T U : Matrix (Fin n) (Fin n) ℝ) (h1 : U * Uᵀ = 1) (h2 : A = U * T * Uᵀ) (h3 : ∀ i j : Fin n, j < i → T i j = 0) :
    RealSpectrum exactExt A := by
  have h : ∃ p : Matrix (Fin n) (Fin n) ℝ × Matrix (Fin n) (Fin n) ℝ, p.2 * p.2ᵀ = 1 ∧ A = p.2 * p.1 * p.2ᵀ ∧ ∀ i j : Fin n, j < i → p.1 i j = 0 :=
    ⟨(T, U), h1, h2, h3⟩
  unfold RealSpectrum
  have : exactExt.schur A = h.choose := dif_pos h
  rw [this]
  exact h.choose_spec.2.2

theorem exact_svd {n : ℕ} (Z : Matrix (Fin n) (Fin n) ℝ) (hZ : Z.PosSemidef) : SvdOk exactExt Z := by
  have hUU : (hZ.isHermitian.eigenvectorUnitary : Matrix (Fin n) (Fin n) ℝ) * (hZ.isHermitian.eigenvectorUnitary : Matrix (Fin n) (Fin n) ℝ)ᵀ = 1 := by
    have := Unitary.coe_mul_star_self hZ.isHermitian.eigenvectorUnitary
    rwa [Unitary.coe_star, Matrix.star_eq_conjTranspose, conjTranspose_eq_transpose_of_trivial] at this
  have hspec : Z = (hZ.isHermitian.eigenvectorUnitary : Matrix (Fin n) (Fin n) ℝ) * Matrix.diagonal hZ.isHermitian.eigenvalues
      * (hZ.isHermitian.eigenvectorUnitary : Matrix (Fin n) (Fin n) ℝ)ᵀ := by
    have := hZ.isHermitian.spectral_theorem
    rw [Unitary.conjStarAlgAut_apply, Matrix.star_eq_conjTranspose, conjTranspose_eq_transpose_of_trivial] at this
    exact this
  have hsum : ∀ (U V : Matrix (Fin n) (Fin n) ℝ) (s : Fin (min n n) → ℝ), (Matrix.of fun i j => ∑ k : Fin (min n n), U i (k.castLE (min_le_left n n)) * s k * V j (k.castLE (min_le_right n n)))
      = U * Matrix.diagonal (fun k : Fin n => s (k.cast (min_self n).symm)) * Vᵀ := by
    intro U V s
    ext i j
    rw [Matrix.of_apply, Matrix.mul_apply]
    simp only [Matrix.mul_diagonal, Matrix.transpose_apply]
    exact Fintype.sum_equiv (finCongr (min_self n)) _ _ fun k => rfl
  have h : ∃ p : Matrix (Fin n) (Fin n) ℝ × (Fin (min n n) → ℝ) × Matrix (Fin n) (Fin n) ℝ, p.1 * p.1ᵀ = 1 ∧ p.2.2 * p.2.2ᵀ = 1 ∧
      (∀ k, 0 ≤ p.2.1 k) ∧ Z = Matrix.of fun i j => ∑ k : Fin (min n n), p.1 i (k.castLE (min_le_left n n)) * p.2.1 k * p.2.2 j (k.castLE (min_le_right n n)) := by
    refine ⟨(_, fun k => hZ.isHermitian.eigenvalues (k.cast (min_self n)), _), hUU, hUU, fun k => hZ.eigenvalues_nonneg _, ?_⟩
    rw [hsum]
    exact hspec
  have hd : exactExt.svd Z = h.choose := dif_pos h
  unfold SvdOk
  rw [hd]
  obtain ⟨c1, c2, c3, c4⟩ := h.choose_spec
  refine ⟨c1, c2, c3, ?_⟩
  rw [hsum] at c4
  exact c4

theorem exact_solve : SolveOk exactExt := by
  intro n M b h
  change M *ᵥ (M⁻¹ *ᵥ b) = b
  rw [Matrix.mulVec_mulVec, Matrix.mul_nonsing_inv M (isUnit_iff_ne_zero.2 h), Matrix.one_mulVec]

theorem exact_roots : RootsOk exactExt := demo_roots

/-- Every two-state matrix with real eigenvalues has a triangular Schur form. -/
theorem schur_two (M : Matrix (Fin 2) (Fin 2) ℝ) (h : 0 ≤ (M 0 0 - M 1 1) ^ 2 + 4 * (M 0 1 * M 1 0)) :
    ∃ T U : Matrix (Fin 2) (Fin 2) ℝ, U * Uᵀ = 1 ∧ M = U * T * Uᵀ ∧ ∀ i j : Fin 2, j < i → T i j = 0 := by
  set d := Real.sqrt ((M 0 0 - M 1 1) ^ 2 + 4 * (M 0 1 * M 1 0)) with hd
  have hdd : d ^ 2 = (M 0 0 - M 1 1) ^ 2 + 4 * (M 0 1 * M 1 0) := Real.sq_sqrt h
  have hdet : (M - ((M 0 0 + M 1 1 + d) / 2) • (1 : Matrix (Fin 2) (Fin 2) ℝ)).det = 0 := by
    rw [Matrix.det_fin_two]
    simp only [Matrix.sub_apply, Matrix.smul_apply, Matrix.one_apply_eq, smul_eq_mul, mul_one]
    rw [Matrix.one_apply_ne (by decide), Matrix.one_apply_ne (by decide)]
    linear_combination (1 / 4) * hdd
  obtain ⟨v, hv, hMv⟩ := eig_of_det hdet
  have hr : 0 < v 0 ^ 2 + v 1 ^ 2 := by
    by_contra hc
    apply hv
    have h0 : v 0 = 0 := by nlinarith [sq_nonneg (v 0), sq_nonneg (v 1)]
    have h1 : v 1 = 0 := by nlinarith [sq_nonneg (v 0), sq_nonneg (v 1)]
    funext i
    fin_cases i
    · exact h0
    · exact h1
  set r := Real.sqrt (v 0 ^ 2 + v 1 ^ 2) with hrdef
  have hr0 : 0 < r := Real.sqrt_pos.2 hr
  have hrr : r ^ 2 = v 0 ^ 2 + v 1 ^ 2 := Real.sq_sqrt hr.le
  set c := v 0 / r with hc
  set s := v 1 / r with hs
  have hcs : c ^ 2 + s ^ 2 = 1 := by rw [hc, hs]; field_simp; linarith
  have hU : (!![c, -s; s, c] : Matrix (Fin 2) (Fin 2) ℝ) * (!![c, -s; s, c] : Matrix (Fin 2) (Fin 2) ℝ)ᵀ = 1 := by
    ext i j
    fin_cases i <;> fin_cases j <;> simp [Matrix.mul_apply, Fin.sum_univ_two] <;> nlinarith
  have e0 : M 0 0 * v 0 + M 0 1 * v 1 = (M 0 0 + M 1 1 + d) / 2 * v 0 := by simpa [Matrix.mulVec, dotProduct, Fin.sum_univ_two] using congrFun hMv 0
  have e1 : M 1 0 * v 0 + M 1 1 * v 1 = (M 0 0 + M 1 1 + d) / 2 * v 1 := by simpa [Matrix.mulVec, dotProduct, Fin.sum_univ_two] using congrFun hMv 1
  refine ⟨(!![c, -s; s, c] : Matrix (Fin 2) (Fin 2) ℝ)ᵀ * M * !![c, -s; s, c], !![c, -s; s, c], hU, ?_, ?_⟩
  · calc M = ((!![c, -s; s, c] : Matrix (Fin 2) (Fin 2) ℝ) * (!![c, -s; s, c] : Matrix (Fin 2) (Fin 2) ℝ)ᵀ) * M
          * ((!![c, -s; s, c] : Matrix (Fin 2) (Fin 2) ℝ) * (!![c, -s; s, c] : Matrix (Fin 2) (Fin 2) ℝ)ᵀ) := by rw [hU, Matrix.one_mul, Matrix.mul_one]
      _ = _ := by simp only [Matrix.mul_assoc]
  · intro i j hij
    fin_cases i <;> fin_cases j
    · exact absurd hij (lt_irrefl _)
    · exact absurd hij (by decide)
    · have hv0 : v 0 = r * c := by rw [hc]; field_simp
      have hv1 : v 1 = r * s := by rw [hs]; field_simp
      rw [hv0, hv1] at e0 e1
      have f0 : M 0 0 * c + M 0 1 * s = (M 0 0 + M 1 1 + d) / 2 * c := by
        apply mul_left_cancel₀ hr0.ne'; linarith
      have f1 : M 1 0 * c + M 1 1 * s = (M 0 0 + M 1 1 + d) / 2 * s := by
        apply mul_left_cancel₀ hr0.ne'; linarith
      simp [Matrix.mul_apply, Fin.sum_univ_two]
      linear_combination (-s) * f0 + c * f1
    · exact absurd hij (lt_irrefl _)

theorem exact_two : ExactTwo exactExt where
  solve := exact_solve
  schur := exact_schur
  real M h := by
    obtain ⟨T, U, h1, h2, h3⟩ := schur_two M h
    exact exact_real M T U h1 h2 h3
  svd Z _ hZ := exact_svd Z hZ

/-! ### Small pieces -/

section Pieces
variable (e : Ext) {n : ℕ}

/-- The Lyapunov equation of the guess in the coordinates of the plant -/
theorem guess_lyap {A B T U Z : Matrix (Fin n) (Fin n) ℝ} (β : ℝ) (hU : U * Uᵀ = 1) (hA : A = U * T * Uᵀ)
    (hZ : SolvesLyapunov (T + β • (1 : Matrix (Fin n) (Fin n) ℝ)) ((2 : ℝ) • (Uᵀ * B) * (Uᵀ * B)ᵀ) Z) :
    (A + β • (1 : Matrix (Fin n) (Fin n) ℝ)) * (U * Z * Uᵀ) + U * Z * Uᵀ * (A + β • (1 : Matrix (Fin n) (Fin n) ℝ))ᵀ = (2 : ℝ) • (B * Bᵀ) := by
  have hU' := orth_left hU
  have hAb : A + β • (1 : Matrix (Fin n) (Fin n) ℝ) = U * (T + β • (1 : Matrix (Fin n) (Fin n) ℝ)) * Uᵀ := by
    rw [Matrix.mul_add, Matrix.add_mul, ← hA, Matrix.mul_smul, Matrix.mul_one, Matrix.smul_mul, hU]
  rw [hAb, sandwich hU']
  have e2 : (U * (T + β • (1 : Matrix (Fin n) (Fin n) ℝ)) * Uᵀ)ᵀ = U * (T + β • (1 : Matrix (Fin n) (Fin n) ℝ))ᵀ * Uᵀ := by
    simp only [Matrix.transpose_mul, Matrix.transpose_transpose, Matrix.mul_assoc]
  rw [e2, sandwich hU', ← Matrix.add_mul, ← Matrix.mul_add]
  unfold SolvesLyapunov at hZ
  rw [hZ]
  have e3 : U * ((2 : ℝ) • (Uᵀ * B) * (Uᵀ * B)ᵀ) * Uᵀ = (2 : ℝ) • ((U * Uᵀ) * (B * Bᵀ) * (U * Uᵀ)) := by
    simp only [Matrix.transpose_mul, Matrix.transpose_transpose, Matrix.smul_mul, Matrix.mul_smul, Matrix.mul_assoc]
  rw [e3, hU, Matrix.one_mul, Matrix.mul_one]

/-- The truncated pseudo-inverse of a symmetric matrix with singular values `b` (kept) and `s` (dropped) -/
theorem pinv_truncated (Z : Matrix (Fin n) (Fin n) ℝ) (hZ : SvdOk e Z) (hZs : Zᵀ = Z) (b s : ℝ) (hb : 1 / 10 ^ 6 < b) (hs : s ≤ 1 / 10 ^ 6)
    (hsv : ∀ k, (e.svd Z).2.1 k = b ∨ (e.svd Z).2.1 k = s) :
    ∃ P, pinv e Z = some P ∧ (b ^ 2 * (b ^ 2 - s ^ 2)) • P = Z * Z * Z - s ^ 2 • Z := by
  refine ⟨_, pinv_square e Z, ?_⟩
  obtain ⟨hU, hV, -, hA⟩ := hZ
  have hU' := orth_left hU
  have hV' := orth_left hV
  revert hU hV hA hU' hV' hsv
  generalize (e.svd Z).1 = U
  generalize (e.svd Z).2.1 = σ
  generalize (e.svd Z).2.2 = V
  intro hsv hU hV hA hU' hV'
  set D := Matrix.diagonal (fun k : Fin n => σ (k.cast (min_self n).symm)) with hD
  have hA' : Z = V * D * Uᵀ := by
    conv_lhs => rw [← hZs, hA]
    simp only [Matrix.transpose_mul, Matrix.transpose_transpose, hD, Matrix.diagonal_transpose, Matrix.mul_assoc]
  have h3 : Z * Z * Z = V * (D * D * D) * Uᵀ := by
    have h1 : Z * Z = V * (D * D) * Vᵀ := by
      conv_lhs => arg 1; rw [hA']
      conv_lhs => arg 2; rw [hA]
      rw [sandwich2 hU']
    rw [h1]
    conv_lhs => arg 2; rw [hA']
    rw [sandwich2 hV']
  rw [h3]
  conv_rhs => arg 2; rw [hA']
  rw [← Matrix.smul_mul, ← Matrix.mul_smul, ← Matrix.smul_mul, ← Matrix.mul_smul, ← Matrix.sub_mul, ← Matrix.mul_sub, hD, Matrix.diagonal_mul_diagonal,
    Matrix.diagonal_mul_diagonal, ← Matrix.diagonal_smul, ← Matrix.diagonal_smul, Matrix.diagonal_sub]
  congr 2
  congr 1
  funext k
  simp only [Pi.smul_apply, smul_eq_mul]
  rcases hsv (k.cast (min_self n).symm) with h | h
  · rw [h]; unfold invertSv; rw [if_pos hb]
    have : b ≠ 0 := (lt_trans (by norm_num) hb).ne'
    field_simp
  · rw [h]; unfold invertSv; rw [if_neg (not_lt.2 hs)]; ring

theorem regular_two (M : Matrix (Fin 2) (Fin 2) ℝ) (hM : SchurOk e M) (ht : RealSpectrum e M) (htr : M.trace ≠ 0) (hdet : M.det ≠ 0) : Regular e M := by
  rw [regular_iff e _ ht]
  obtain ⟨hU, hA⟩ := hM
  have hU' := orth_left hU
  have h1 : M.trace = (e.schur M).1.trace := by
    conv_lhs => rw [hA]
    rw [Matrix.trace_mul_comm, ← Matrix.mul_assoc, hU', Matrix.one_mul]
  have hdU : (e.schur M).2.det * (e.schur M).2ᵀ.det = 1 := by rw [← Matrix.det_mul, hU, Matrix.det_one]
  have h2 : M.det = (e.schur M).1.det := by
    conv_lhs => rw [hA]
    rw [Matrix.det_mul, Matrix.det_mul, mul_comm _ (e.schur M).1.det, mul_assoc, hdU, mul_one]
  rw [h1, Matrix.trace_fin_two] at htr
  rw [h2, Matrix.det_fin_two, ht 1 0 (by decide), mul_zero, sub_zero] at hdet
  have d0 := left_ne_zero_of_mul hdet
  have d1 := right_ne_zero_of_mul hdet
  intro i j
  fin_cases i <;> fin_cases j
  · intro h; exact d0 (by simpa using h)
  · exact htr
  · intro h; apply htr; rw [add_comm]; exact h
  · intro h; exact d1 (by simpa using h)

theorem disc_two (M : Matrix (Fin 2) (Fin 2) ℝ) : (M 0 0 - M 1 1) ^ 2 + 4 * (M 0 1 * M 1 0) = M.trace ^ 2 - 4 * M.det := by
  rw [Matrix.trace_fin_two, Matrix.det_fin_two]; ring

theorem le_frob (X : Matrix (Fin n) (Fin n) ℝ) (i j : Fin n) : |X i j| ≤ frob X := by
  unfold frob
  rw [← Real.sqrt_sq_eq_abs]
  refine Real.sqrt_le_sqrt ?_
  rw [pow_two]
  have h1 : X i j * X i j ≤ ∑ j, X i j * X i j := Finset.single_le_sum (f := fun j => X i j * X i j) (fun _ _ => mul_self_nonneg _) (Finset.mem_univ j)
  have h2 : ∑ j, X i j * X i j ≤ ∑ i, ∑ j, X i j * X i j :=
    Finset.single_le_sum (f := fun i => ∑ j, X i j * X i j) (fun _ _ => Finset.sum_nonneg fun _ _ => mul_self_nonneg _) (Finset.mem_univ i)
  exact h1.trans h2

theorem pinv_one (hsvd : SvdOk e (1 : Matrix (Fin 1) (Fin 1) ℝ)) : pinv e (1 : Matrix (Fin 1) (Fin 1) ℝ) = some 1 := by
  have hk : ∀ k, (1 : ℝ) / 10 ^ 6 < (e.svd (1 : Matrix (Fin 1) (Fin 1) ℝ)).2.1 k := by
    obtain ⟨hU, hV, hs, hA⟩ := hsvd
    intro k
    have hk0 : k = (0 : Fin 1).cast (min_self 1).symm := Fin.ext (Nat.lt_one_iff.1 (lt_of_lt_of_le k.isLt (min_le_left 1 1)))
    have a := congrFun (congrFun hA 0) 0
    have u := congrFun (congrFun hU 0) 0
    have v := congrFun (congrFun hV 0) 0
    have s0 := hs k
    rw [hk0] at s0 ⊢
    simp only [Matrix.mul_apply, Matrix.transpose_apply, Matrix.diagonal_apply, Finset.univ_unique, Fin.default_eq_zero, Finset.sum_singleton, Matrix.one_apply_eq, if_true] at a u v
    generalize (e.svd (1 : Matrix (Fin 1) (Fin 1) ℝ)).1 0 0 = x at *
    generalize (e.svd (1 : Matrix (Fin 1) (Fin 1) ℝ)).2.2 0 0 = y at *
    generalize (e.svd (1 : Matrix (Fin 1) (Fin 1) ℝ)).2.1 ((0 : Fin 1).cast (min_self 1).symm) = z at *
    have : z * z = 1 := by
      have : (x * z * y) * (x * z * y) = (x * x) * (y * y) * (z * z) := by ring
      rw [← a, u, v] at this; linarith
    nlinarith
  obtain ⟨P, hP, hP1, -⟩ := pinv_inverse e _ hsvd hk
  rw [Matrix.mul_one] at hP1
  rw [hP, hP1]

end Pieces

/-! ### The double integrator -/

section Double
variable (e : Ext)

/-- Position and velocity -/
def plantF : Matrix (Fin 2) (Fin 2) ℝ := !![0, 1; 0, 0]

/-- The input is a force. -/
def plantG : Matrix (Fin 2) (Fin 1) ℝ := !![0; 1]

theorem plantB : plantG * (1 : Matrix (Fin 1) (Fin 1) ℝ) * plantGᵀ = !![0, 0; 0, 1] := by
  ext i j
  fin_cases i <;> fin_cases j <;> simp [plantG, Matrix.mul_apply]

/-- The controllability matrix of the shifted plant -/
theorem plant_gramian (Y : Matrix (Fin 2) (Fin 2) ℝ)
    (h : (plantF + (100 : ℝ) • (1 : Matrix (Fin 2) (Fin 2) ℝ)) * Y + Y * (plantF + (100 : ℝ) • (1 : Matrix (Fin 2) (Fin 2) ℝ))ᵀ
      = (2 : ℝ) • ((!![0, 0; 0, 1] : Matrix (Fin 2) (Fin 2) ℝ) * (!![0, 0; 0, 1] : Matrix (Fin 2) (Fin 2) ℝ)ᵀ)) :
    Y 0 0 = 1 / 2000000 ∧ Y 0 1 = -1 / 20000 ∧ Y 1 0 = -1 / 20000 ∧ Y 1 1 = 1 / 100 := by
  rw [show (!![0, 0; 0, 1] : Matrix (Fin 2) (Fin 2) ℝ)ᵀ = !![0, 0; 0, 1] by ext i j; fin_cases i <;> fin_cases j <;> rfl] at h
  have h00 := congrFun (congrFun h 0) 0
  have h01 := congrFun (congrFun h 0) 1
  have h10 := congrFun (congrFun h 1) 0
  have h11 := congrFun (congrFun h 1) 1
  simp [plantF, Matrix.mul_apply, Fin.sum_univ_two, Matrix.add_apply, Matrix.smul_apply, Matrix.one_apply] at h00 h01 h10 h11
  refine ⟨?_, ?_, ?_, ?_⟩ <;> linarith

theorem gramian_psd (Y : Matrix (Fin 2) (Fin 2) ℝ) (h : Y 0 0 = 1 / 2000000 ∧ Y 0 1 = -1 / 20000 ∧ Y 1 0 = -1 / 20000 ∧ Y 1 1 = 1 / 100) : Y.PosSemidef := by
  obtain ⟨h00, h01, h10, h11⟩ := h
  refine PosSemidef.of_dotProduct_mulVec_nonneg ?_ fun x => ?_
  · rw [IsHermitian, conjTranspose_eq_transpose_of_trivial]
    ext i j
    fin_cases i <;> fin_cases j <;> simp [h01, h10]
  · rw [star_trivial]
    simp only [dotProduct, Matrix.mulVec, Fin.sum_univ_two, h00, h01, h10, h11]
    nlinarith [sq_nonneg (x 0 - 100 * x 1), sq_nonneg (x 1)]

/-- The singular values of the controllability matrix: one above and one below the threshold of `pinv` -/
theorem gramian_sv {σ0 σ1 : ℝ} (h0 : 0 ≤ σ0) (h1 : 0 ≤ σ1) (hsum : σ0 ^ 2 + σ1 ^ 2 = (1 / 2000000) ^ 2 + 2 * (1 / 20000) ^ 2 + (1 / 100) ^ 2)
    (hprod : σ0 * σ1 = 1 / 400000000) : (1 / 10 ^ 6 < σ0 ∧ σ1 ≤ 1 / 10 ^ 6) ∨ (1 / 10 ^ 6 < σ1 ∧ σ0 ≤ 1 / 10 ^ 6) := by
  have key : ∀ a b : ℝ, 0 ≤ a → 0 ≤ b → a ^ 2 + b ^ 2 = (1 / 2000000) ^ 2 + 2 * (1 / 20000) ^ 2 + (1 / 100) ^ 2 → a * b = 1 / 400000000 → b ≤ a →
      1 / 10 ^ 6 < a ∧ b ≤ 1 / 10 ^ 6 := by
    intro a b ha hb hs hp hba
    have ha1 : 1 / 200 < a := by
      by_contra hc
      rw [not_lt] at hc
      nlinarith
    refine ⟨lt_trans (by norm_num) ha1, ?_⟩
    by_contra hc
    rw [not_le] at hc
    nlinarith
  rcases le_total σ1 σ0 with h | h
  · exact Or.inl (key _ _ h0 h1 hsum hprod h)
  · exact Or.inr (key _ _ h1 h0 (by linarith) (by linarith) h)

theorem first_num {c p : ℝ} (hc : 0 < c) (hle : c ≤ 4 / 10 ^ 8) (h : c * p ≤ -4 / 10 ^ 9) : p < -1 / 100 := by
  by_contra hn
  rw [not_lt] at hn
  have := mul_le_mul_of_nonneg_left hn hc.le
  linarith

theorem second_row (M : Matrix (Fin 2) (Fin 2) ℝ) : (!![0, 0; 0, 1] : Matrix (Fin 2) (Fin 2) ℝ)ᵀ * M = !![0, 0; M 1 0, M 1 1] := by
  ext i j
  rw [Matrix.mul_apply, Fin.sum_univ_two]
  fin_cases i <;> fin_cases j <;> simp

/-- The entries of the truncated inverse -/
theorem truncated_entries (Y Ψ : Matrix (Fin 2) (Fin 2) ℝ) (b s : ℝ)
    (hY : Y 0 0 = 1 / 2000000 ∧ Y 0 1 = -1 / 20000 ∧ Y 1 0 = -1 / 20000 ∧ Y 1 1 = 1 / 100) (hb : 1 / 10 ^ 6 < b) (hs : s ≤ 1 / 10 ^ 6) (hs0 : 0 ≤ s)
    (hbs : b ^ 2 + s ^ 2 = (1 / 2000000) ^ 2 + 2 * (1 / 20000) ^ 2 + (1 / 100) ^ 2) (hPsi : (b ^ 2 * (b ^ 2 - s ^ 2)) • Ψ = Y * Y * Y - s ^ 2 • Y) :
    Ψ 1 0 < -1 / 100 ∧ 0 < Ψ 1 1 := by
  obtain ⟨y00, y01, y10, y11⟩ := hY
  set c := b ^ 2 * (b ^ 2 - s ^ 2) with hc
  have hs2 : s ^ 2 ≤ 1 / 10 ^ 12 := by nlinarith
  have hb2 : b ^ 2 ≤ 2 / 10 ^ 4 := by linarith [sq_nonneg s]
  have hb2' : 1 / 10 ^ 5 ≤ b ^ 2 - s ^ 2 := by linarith
  have hcpos : 0 < c := mul_pos (by linarith [sq_nonneg s]) (by linarith)
  have hcle : c ≤ 4 / 10 ^ 8 := by
    rw [hc]
    have h1 : b ^ 2 - s ^ 2 ≤ 2 / 10 ^ 4 := by linarith [sq_nonneg s]
    calc b ^ 2 * (b ^ 2 - s ^ 2) ≤ 2 / 10 ^ 4 * (2 / 10 ^ 4) := mul_le_mul hb2 h1 (by linarith) (by norm_num)
      _ = _ := by norm_num
  have h10 := congrFun (congrFun hPsi 1) 0
  have h11 := congrFun (congrFun hPsi 1) 1
  simp only [Matrix.smul_apply, Matrix.sub_apply, Matrix.mul_apply, Fin.sum_univ_two, y00, y01, y10, y11, smul_eq_mul] at h10 h11
  constructor
  · refine first_num hcpos hcle ?_
    rw [h10]; norm_num; linarith
  · have : 0 < c * Ψ 1 1 := by rw [h11]; norm_num; linarith
    exact (mul_pos_iff_of_pos_left hcpos).1 this

/-- The first guess: the row of the position has the wrong sign. -/
theorem double_raw (he : ExactTwo e) : ∃ p q : ℝ, p < -1 / 100 ∧ 0 < q ∧ initRaw e 100 plantF !![0, 0; 0, 1] = some !![0, 0; p, q] := by
  obtain ⟨hU, hA⟩ := he.schur plantF
  have hU' := orth_left hU
  have hdU : (e.schur plantF).2.det * (e.schur plantF).2ᵀ.det = 1 := by rw [← Matrix.det_mul, hU, Matrix.det_one]
  set U := (e.schur plantF).2 with hUdef
  set T := (e.schur plantF).1 with hTdef
  have hAb : plantF + (100 : ℝ) • (1 : Matrix (Fin 2) (Fin 2) ℝ) = U * (T + (100 : ℝ) • (1 : Matrix (Fin 2) (Fin 2) ℝ)) * Uᵀ := by
    rw [Matrix.mul_add, Matrix.add_mul, ← hA, Matrix.mul_smul, Matrix.mul_one, Matrix.smul_mul, hU]
  have htr : (T + (100 : ℝ) • (1 : Matrix (Fin 2) (Fin 2) ℝ)).trace = 200 := by
    have : (plantF + (100 : ℝ) • (1 : Matrix (Fin 2) (Fin 2) ℝ)).trace = 200 := by
      rw [Matrix.trace_fin_two]; simp [plantF]; norm_num
    rw [hAb, Matrix.trace_mul_comm, ← Matrix.mul_assoc, hU', Matrix.one_mul] at this
    exact this
  have hdet : (T + (100 : ℝ) • (1 : Matrix (Fin 2) (Fin 2) ℝ)).det = 10000 := by
    have : (plantF + (100 : ℝ) • (1 : Matrix (Fin 2) (Fin 2) ℝ)).det = 10000 := by
      rw [Matrix.det_fin_two]; simp [plantF]; norm_num
    rw [hAb, Matrix.det_mul, Matrix.det_mul, mul_comm U.det, mul_assoc, hdU, mul_one] at this
    exact this
  have hsch := he.schur (T + (100 : ℝ) • (1 : Matrix (Fin 2) (Fin 2) ℝ))
  have hreal : RealSpectrum e (T + (100 : ℝ) • (1 : Matrix (Fin 2) (Fin 2) ℝ)) := he.real _ (by rw [disc_two, htr, hdet]; norm_num)
  have hreg := regular_two e _ hsch hreal (by rw [htr]; norm_num) (by rw [hdet]; norm_num)
  set B : Matrix (Fin 2) (Fin 2) ℝ := !![0, 0; 0, 1] with hBdef
  have hZ := lyapunov_solves e he.solve _ ((2 : ℝ) • (Uᵀ * B) * (Uᵀ * B)ᵀ) hsch hreg hreal
  set Z := lyapunov e (T + (100 : ℝ) • (1 : Matrix (Fin 2) (Fin 2) ℝ)) ((2 : ℝ) • (Uᵀ * B) * (Uᵀ * B)ᵀ) with hZdef
  have hY := plant_gramian _ (guess_lyap 100 hU hA hZ)
  have hYpsd := gramian_psd _ hY
  have hZY : Z = Uᵀ * (U * Z * Uᵀ) * U := (unsandwich hU' hU').symm
  have hZpsd : Z.PosSemidef := by
    rw [hZY]
    have := hYpsd.conjTranspose_mul_mul_same U
    rwa [conjTranspose_eq_transpose_of_trivial] at this
  have hZs := symm_of_psd hZpsd
  have hsvd := he.svd Z le_rfl hZpsd
  set Y := U * Z * Uᵀ with hYdef
  obtain ⟨y00, y01, y10, y11⟩ := hY
  -- the singular values
  set σ0 := (e.svd Z).2.1 ((0 : Fin 2).cast (min_self 2).symm) with hσ0
  set σ1 := (e.svd Z).2.1 ((1 : Fin 2).cast (min_self 2).symm) with hσ1
  have hdiag : Matrix.diagonal (fun k : Fin 2 => (e.svd Z).2.1 (k.cast (min_self 2).symm)) = !![σ0, 0; 0, σ1] := by
    ext i j
    fin_cases i <;> fin_cases j <;> rfl
  have hZZ : (Z * Z).trace = σ0 ^ 2 + σ1 ^ 2 := by
    have h1 : Z * Z = (e.svd Z).1 * (!![σ0, 0; 0, σ1] * !![σ0, 0; 0, σ1]) * (e.svd Z).1ᵀ := by
      have h2 : Z = (e.svd Z).2.2 * !![σ0, 0; 0, σ1] * (e.svd Z).1ᵀ := by
        have := congrArg Matrix.transpose hsvd.2.2.2
        rw [hZs, hdiag] at this
        refine this.trans ?_
        rw [Matrix.transpose_mul, Matrix.transpose_mul, Matrix.transpose_transpose,
          show (!![σ0, 0; 0, σ1] : Matrix (Fin 2) (Fin 2) ℝ)ᵀ = !![σ0, 0; 0, σ1] by ext i j; fin_cases i <;> fin_cases j <;> rfl, Matrix.mul_assoc]
      have h3 := hsvd.2.2.2
      rw [hdiag] at h3
      have h4 := sandwich (U := (e.svd Z).1) (D := !![σ0, 0; 0, σ1]) (E := !![σ0, 0; 0, σ1]) (orth_left hsvd.2.1)
      rwa [← h2, ← h3] at h4
    rw [h1, Matrix.trace_mul_comm, ← Matrix.mul_assoc, orth_left hsvd.1, Matrix.one_mul, Matrix.trace_fin_two]
    simp [Matrix.mul_apply, Fin.sum_univ_two]; ring
  have hYY : (Y * Y).trace = (Z * Z).trace := by
    rw [hYdef, sandwich hU', Matrix.trace_mul_comm, ← Matrix.mul_assoc, hU', Matrix.one_mul]
  have hsum : σ0 ^ 2 + σ1 ^ 2 = (1 / 2000000) ^ 2 + 2 * (1 / 20000) ^ 2 + (1 / 100) ^ 2 := by
    rw [← hZZ, ← hYY, Matrix.trace_fin_two, Matrix.mul_apply, Matrix.mul_apply]
    simp only [Fin.sum_univ_two, y00, y01, y10, y11]
    norm_num
  have hn0 : 0 ≤ σ0 := hsvd.2.2.1 _
  have hn1 : 0 ≤ σ1 := hsvd.2.2.1 _
  have hprod : σ0 * σ1 = 1 / 400000000 := by
    have hdY : Y.det = 1 / 400000000 := by rw [Matrix.det_fin_two, y00, y01, y10, y11]; norm_num
    have hdZ : Z.det = 1 / 400000000 := by
      rw [hYdef, Matrix.det_mul, Matrix.det_mul, mul_comm U.det, mul_assoc, hdU, mul_one] at hdY
      exact hdY
    have h3 := congrArg Matrix.det hsvd.2.2.2
    rw [hdiag, Matrix.det_mul, Matrix.det_mul, hdZ, Matrix.det_fin_two_of] at h3
    have hd1 : (e.svd Z).1.det ^ 2 = 1 := by
      have := congrArg Matrix.det hsvd.1
      rw [Matrix.det_mul, Matrix.det_transpose, Matrix.det_one] at this
      rw [pow_two]; exact this
    have hd2 : (e.svd Z).2.2.det ^ 2 = 1 := by
      have := congrArg Matrix.det hsvd.2.1
      rw [Matrix.det_mul, Matrix.det_transpose, Matrix.det_one] at this
      rw [pow_two]; exact this
    rw [Matrix.det_transpose] at h3
    have h4 : (σ0 * σ1) ^ 2 = (1 / 400000000) ^ 2 := by
      rw [h3]
      have : ((e.svd Z).1.det * (σ0 * σ1 - 0 * 0) * (e.svd Z).2.2.det) ^ 2 = (e.svd Z).1.det ^ 2 * (e.svd Z).2.2.det ^ 2 * (σ0 * σ1) ^ 2 := by ring
      rw [this, hd1, hd2]; ring
    exact (pow_left_inj₀ (mul_nonneg hn0 hn1) (by norm_num) two_ne_zero).1 h4
  obtain ⟨b, s, hb, hs, hs0, hbs, hbsp, hall⟩ : ∃ b s : ℝ, 1 / 10 ^ 6 < b ∧ s ≤ 1 / 10 ^ 6 ∧ 0 ≤ s ∧
      b ^ 2 + s ^ 2 = (1 / 2000000) ^ 2 + 2 * (1 / 20000) ^ 2 + (1 / 100) ^ 2 ∧ b * s = 1 / 400000000 ∧ ∀ k, (e.svd Z).2.1 k = b ∨ (e.svd Z).2.1 k = s := by
    have hk : ∀ k, (e.svd Z).2.1 k = σ0 ∨ (e.svd Z).2.1 k = σ1 := by
      intro k
      have hlt : k.val < 2 := lt_of_lt_of_le k.isLt (min_le_left 2 2)
      rcases (by omega : k.val = 0 ∨ k.val = 1) with h | h
      · left; rw [hσ0]; exact congrArg (e.svd Z).2.1 (Fin.ext (by rw [h]; rfl))
      · right; rw [hσ1]; exact congrArg (e.svd Z).2.1 (Fin.ext (by rw [h]; rfl))
    rcases gramian_sv hn0 hn1 hsum hprod with ⟨h1, h2⟩ | ⟨h1, h2⟩
    · exact ⟨σ0, σ1, h1, h2, hn1, hsum, hprod, hk⟩
    · exact ⟨σ1, σ0, h1, h2, hn0, by linarith, by linarith, fun k => (hk k).symm⟩
  obtain ⟨P, hP, hcP⟩ := pinv_truncated e Z hsvd hZs b s hb hs hall
  have hraw : initRaw e 100 plantF B = some ((Uᵀ * B)ᵀ * P * Uᵀ) := by
    unfold initRaw
    simp only [← hUdef, ← hTdef, ← hZdef, hP]
  set c := b ^ 2 * (b ^ 2 - s ^ 2) with hc
  have hPsi : c • (U * P * Uᵀ) = Y * Y * Y - s ^ 2 • Y := by
    rw [← Matrix.smul_mul, ← Matrix.mul_smul, hcP, Matrix.mul_sub, Matrix.sub_mul, Matrix.mul_smul, Matrix.smul_mul, hYdef, sandwich hU', sandwich hU']
  have hX : (Uᵀ * B)ᵀ * P * Uᵀ = Bᵀ * (U * P * Uᵀ) := by
    simp only [Matrix.transpose_mul, Matrix.transpose_transpose, Matrix.mul_assoc]
  obtain ⟨k1, k2⟩ := truncated_entries Y (U * P * Uᵀ) b s ⟨y00, y01, y10, y11⟩ hb hs hs0 hbs hPsi
  refine ⟨(U * P * Uᵀ) 1 0, (U * P * Uᵀ) 1 1, k1, k2, ?_⟩
  rw [hraw, hX, second_row]

/-- The symmetrised guess keeps the wrong sign. -/
theorem double_sym (he : ExactTwo e) (p q : ℝ) (hp : p < -1 / 100) (hq : 0 < q) :
    initSym e plantF !![0, 0; 0, 1] !![0, 0; p, q] 1 0 < 0 := by
  set X : Matrix (Fin 2) (Fin 2) ℝ := !![0, 0; p, q] with hX
  set B : Matrix (Fin 2) (Fin 2) ℝ := !![0, 0; 0, 1] with hB
  have hL : plantF - B * X = !![0, 1; -p, -q] := by
    ext i j
    fin_cases i <;> fin_cases j <;> simp [plantF, hB, hX, Matrix.mul_apply, Fin.sum_univ_two]
  have hasym : 1 / 10 ^ 12 < frob (X - Xᵀ) := by
    have := le_frob (X - Xᵀ) 1 0
    have h1 : (X - Xᵀ) 1 0 = p := by simp [hX]
    rw [h1, abs_of_neg (by linarith)] at this
    linarith [show (1 : ℝ) / 10 ^ 12 < 1 / 100 by norm_num]
  have hsch := he.schur (plantF - B * X)ᵀ
  have htr : (plantF - B * X)ᵀ.trace = -q := by rw [Matrix.trace_transpose, hL, Matrix.trace_fin_two]; simp
  have hdet : (plantF - B * X)ᵀ.det = p := by rw [Matrix.det_transpose, hL, Matrix.det_fin_two]; simp
  have hreal : RealSpectrum e (plantF - B * X)ᵀ := he.real _ (by rw [disc_two, htr, hdet]; nlinarith)
  have hreg := regular_two e _ hsch hreal (by rw [htr]; linarith) (by rw [hdet]; linarith)
  have hBs : Bᵀ = B := by
    ext i j
    fin_cases i <;> fin_cases j <;> rfl
  have hsym := (initSym_identity e he.solve plantF B X ⟨hsch, hreg, hreal⟩ hBs hasym).1
  have hsol := lyapunov_solves e he.solve _ (-(Xᵀ * B * X + (1 / 2 : ℝ) • (1 : Matrix (Fin 2) (Fin 2) ℝ))) hsch hreg hreal
  have h0 : initSym e plantF B X = lyapunov e (plantF - B * X)ᵀ (-(Xᵀ * B * X + (1 / 2 : ℝ) • (1 : Matrix (Fin 2) (Fin 2) ℝ))) := by
    unfold initSym; rw [if_pos hasym]
  rw [← h0] at hsol
  generalize initSym e plantF B X = S at hsol hsym
  unfold SolvesLyapunov at hsol
  rw [Matrix.transpose_transpose, hL] at hsol
  have h00 := congrFun (congrFun hsol 0) 0
  have hs01 : S 0 1 = S 1 0 := congrFun (congrFun hsym 1) 0
  simp [hB, hX, Matrix.mul_apply, Fin.sum_univ_two, Matrix.add_apply, hs01] at h00
  nlinarith [mul_self_nonneg p]

/-- C178. `lqr` of control/lqr.hpp on the double integrator with unit input weight and any state weight returns a gain whose closed loop has a positive
real eigenvalue. -/
theorem lqrHeader_destabilises (he : ExactTwo e) (Q : Matrix (Fin 2) (Fin 2) ℝ) (check : Bool) (hw : check = true → weightsOk e Q 1 (0 : Matrix (Fin 2) (Fin 1) ℝ) = some true) :
    ∃ S K, lqrHeader e plantF plantG Q 1 0 check = some (S, K) ∧ ¬ Hurwitz (plantF - plantG * K) ∧
      ∃ (r : ℝ) (v : Fin 2 → ℝ), 0 < r ∧ v ≠ 0 ∧ (plantF - plantG * K) *ᵥ v = r • v := by
  obtain ⟨p, q, hp, hq, hraw⟩ := double_raw e he
  have hneg := double_sym e he p q hp hq
  have hcare : careHeader e plantF !![0, 0; 0, 1] Q = some (initSym e plantF !![0, 0; 0, 1] !![0, 0; p, q]) := by
    unfold careHeader initCare; rw [hraw]
  have hP : pinv e (1 : Matrix (Fin 1) (Fin 1) ℝ) = some 1 := pinv_one e (he.svd _ (by norm_num) Matrix.PosSemidef.one)
  have hD : riccatiData plantF plantG Q (1 : Matrix (Fin 1) (Fin 1) ℝ) (0 : Matrix (Fin 2) (Fin 1) ℝ) = (plantF, !![0, 0; 0, 1], Q) := by
    unfold riccatiData
    rw [plantB]
    simp only [Matrix.zero_mul, sub_zero, zero_add]
  generalize initSym e plantF !![0, 0; 0, 1] !![0, 0; p, q] = S at hneg hcare
  refine ⟨S, gain plantG 1 0 S, ?_, ?_⟩
  · unfold lqrHeader
    rw [if_neg, hP]
    · simp only [hD, hcare]
    · rintro ⟨h1, h2⟩; exact h2 (hw h1)
  have hK : gain plantG 1 0 S = !![S 1 0, S 1 1] := by
    rw [gain, Matrix.transpose_zero, add_zero, Matrix.one_mul]
    ext i j
    rw [Matrix.mul_apply]
    fin_cases i; fin_cases j <;> simp [plantG, Fin.sum_univ_two]
  have hcl : plantF - plantG * gain plantG 1 0 S = !![0, 1; -S 1 0, -S 1 1] := by
    rw [hK]
    ext i j
    rw [Matrix.sub_apply, Matrix.mul_apply]
    fin_cases i <;> fin_cases j <;> simp [plantF, plantG]
  rw [hcl]
  have heig : ∃ (r : ℝ) (v : Fin 2 → ℝ), 0 < r ∧ v ≠ 0 ∧ (!![0, 1; -S 1 0, -S 1 1] : Matrix (Fin 2) (Fin 2) ℝ) *ᵥ v = r • v := by
    set d := Real.sqrt ((S 1 1) ^ 2 - 4 * S 1 0) with hd
    have hdd : d ^ 2 = (S 1 1) ^ 2 - 4 * S 1 0 := Real.sq_sqrt (by nlinarith [sq_nonneg (S 1 1)])
    have hd0 : 0 ≤ d := Real.sqrt_nonneg _
    have hlt : S 1 1 < d := by
      by_contra hc
      rw [not_lt] at hc
      nlinarith
    refine ⟨(-S 1 1 + d) / 2, ![1, (-S 1 1 + d) / 2], by linarith, fun h => ?_, ?_⟩
    · have := congrFun h 0
      simp at this
    · funext i
      fin_cases i
      · simp [Matrix.mulVec, dotProduct, Fin.sum_univ_two]
      · simp [Matrix.mulVec, dotProduct, Fin.sum_univ_two]
        nlinarith
  refine ⟨fun hh => ?_, heig⟩
  obtain ⟨r, v, hr, hv, hrv⟩ := heig
  have := (hurwitz_iff _).1 hh r 0 v 0 (Or.inl hv) (by rw [hrv, smul_zero, sub_zero]) (by rw [Matrix.mulVec_zero, zero_smul, smul_zero, add_zero])
  linarith

end Double

/-! ### The hypotheses can be met -/

section Cases

/-- C178 applies to exact decompositions. -/
example : ∃ S K, lqrHeader exactExt plantF plantG (1 : Matrix (Fin 2) (Fin 2) ℝ) 1 0 false = some (S, K) ∧ ¬ Hurwitz (plantF - plantG * K) := by
  obtain ⟨S, K, h1, h2, -⟩ := lqrHeader_destabilises exactExt exact_two 1 false (by simp)
  exact ⟨S, K, h1, h2⟩

/-- Squares of the singular values of a two-state matrix -/
theorem sv_two (e : Ext) (Z : Matrix (Fin 2) (Fin 2) ℝ) (h : SvdOk e Z) :
    ∃ a b : ℝ, 0 ≤ a ∧ 0 ≤ b ∧ a ^ 2 + b ^ 2 = (Z * Zᵀ).trace ∧ (a * b) ^ 2 = Z.det ^ 2 ∧ ∀ k, (e.svd Z).2.1 k = a ∨ (e.svd Z).2.1 k = b := by
  obtain ⟨hU, hV, hs, hA⟩ := h
  refine ⟨(e.svd Z).2.1 ((0 : Fin 2).cast (min_self 2).symm), (e.svd Z).2.1 ((1 : Fin 2).cast (min_self 2).symm), hs _, hs _, ?_, ?_, fun k => ?_⟩
  · have hdiag : Matrix.diagonal (fun k : Fin 2 => (e.svd Z).2.1 (k.cast (min_self 2).symm))
        = !![(e.svd Z).2.1 ((0 : Fin 2).cast (min_self 2).symm), 0; 0, (e.svd Z).2.1 ((1 : Fin 2).cast (min_self 2).symm)] := by
      ext i j
      fin_cases i <;> fin_cases j <;> rfl
    rw [hdiag] at hA
    revert hA hU hV
    generalize (e.svd Z).1 = U
    generalize (e.svd Z).2.2 = V
    generalize (e.svd Z).2.1 ((0 : Fin 2).cast (min_self 2).symm) = a
    generalize (e.svd Z).2.1 ((1 : Fin 2).cast (min_self 2).symm) = b
    intro hU hV hA
    have hdt : (!![a, 0; 0, b] : Matrix (Fin 2) (Fin 2) ℝ)ᵀ = !![a, 0; 0, b] := by
      ext i j
      fin_cases i <;> fin_cases j <;> rfl
    have hZt : Zᵀ = V * !![a, 0; 0, b] * Uᵀ := by
      rw [hA, Matrix.transpose_mul, Matrix.transpose_mul, Matrix.transpose_transpose, hdt, Matrix.mul_assoc]
    rw [hZt, hA, sandwich (orth_left hV), Matrix.trace_mul_comm, ← Matrix.mul_assoc, orth_left hU, Matrix.one_mul, Matrix.trace_fin_two]
    simp [Matrix.mul_apply, Fin.sum_univ_two]; ring
  · have hd1 : (e.svd Z).1.det ^ 2 = 1 := by
      have := congrArg Matrix.det hU
      rw [Matrix.det_mul, Matrix.det_transpose, Matrix.det_one] at this
      rw [pow_two]; exact this
    have hd2 : (e.svd Z).2.2.det ^ 2 = 1 := by
      have := congrArg Matrix.det hV
      rw [Matrix.det_mul, Matrix.det_transpose, Matrix.det_one] at this
      rw [pow_two]; exact this
    have h3 := congrArg Matrix.det hA
    rw [Matrix.det_mul, Matrix.det_mul, Matrix.det_diagonal, Fin.prod_univ_two, Matrix.det_transpose] at h3
    rw [h3]
    revert hd1 hd2
    generalize (e.svd Z).1.det = u
    generalize (e.svd Z).2.2.det = v
    generalize (e.svd Z).2.1 ((0 : Fin 2).cast (min_self 2).symm) = a
    generalize (e.svd Z).2.1 ((1 : Fin 2).cast (min_self 2).symm) = b
    intro hd1 hd2
    linear_combination -(a * b) ^ 2 * v ^ 2 * hd1 - (a * b) ^ 2 * hd2
  · have hlt : k.val < 2 := lt_of_lt_of_le k.isLt (min_le_left 2 2)
    rcases (by omega : k.val = 0 ∨ k.val = 1) with h | h
    · left; exact congrArg (e.svd Z).2.1 (Fin.ext (by rw [h]; rfl))
    · right; exact congrArg (e.svd Z).2.1 (Fin.ext (by rw [h]; rfl))

/-- C177 applies to the double integrator with the shift 1/2 of polymath.cpp: the first guess is not symmetric. -/
example : GuessOk exactExt (1 / 2) plantF !![0, 0; 0, 1] ∧ (!![0, 0; 0, 1] : Matrix (Fin 2) (Fin 2) ℝ).det = 0 ∧
    ∃ X, initRaw exactExt (1 / 2) plantF !![0, 0; 0, 1] = some X ∧ 1 / 10 ^ 12 < frob (X - Xᵀ) := by
  set B : Matrix (Fin 2) (Fin 2) ℝ := !![0, 0; 0, 1] with hB
  obtain ⟨hU, hA⟩ := exact_schur plantF
  have hU' := orth_left hU
  have hdU : (exactExt.schur plantF).2.det * (exactExt.schur plantF).2ᵀ.det = 1 := by rw [← Matrix.det_mul, hU, Matrix.det_one]
  have hgram : ∀ Y : Matrix (Fin 2) (Fin 2) ℝ, (plantF + (1 / 2 : ℝ) • (1 : Matrix (Fin 2) (Fin 2) ℝ)) * Y
      + Y * (plantF + (1 / 2 : ℝ) • (1 : Matrix (Fin 2) (Fin 2) ℝ))ᵀ = (2 : ℝ) • (B * Bᵀ) → Y = !![4, -2; -2, 2] := by
    intro Y h
    rw [hB, show (!![0, 0; 0, 1] : Matrix (Fin 2) (Fin 2) ℝ)ᵀ = !![0, 0; 0, 1] by ext i j; fin_cases i <;> fin_cases j <;> rfl] at h
    have h00 := congrFun (congrFun h 0) 0
    have h01 := congrFun (congrFun h 0) 1
    have h10 := congrFun (congrFun h 1) 0
    have h11 := congrFun (congrFun h 1) 1
    simp [plantF, Matrix.mul_apply, Fin.sum_univ_two, Matrix.add_apply, Matrix.smul_apply, Matrix.one_apply] at h00 h01 h10 h11
    ext i j
    fin_cases i <;> fin_cases j <;> simp <;> linarith
  have hdisc : (exactExt.schur plantF).1.trace = 0 ∧ (exactExt.schur plantF).1.det = 0 := by
    constructor
    · have : plantF.trace = 0 := by rw [Matrix.trace_fin_two]; simp [plantF]
      rw [hA, Matrix.trace_mul_comm, ← Matrix.mul_assoc, hU', Matrix.one_mul] at this
      exact this
    · have : plantF.det = 0 := by rw [Matrix.det_fin_two]; simp [plantF]
      rw [hA, Matrix.det_mul, Matrix.det_mul, mul_comm (exactExt.schur plantF).2.det, mul_assoc, hdU, mul_one] at this
      exact this
  have hg : GuessOk exactExt (1 / 2) plantF B := by
    refine ⟨by norm_num, ?_, exact_schur _, exact_schur _, exact_two.real _ ?_, fun Z hZ => ?_⟩
    · intro z v hv hz
      have h0 : v 1 = z * v 0 := by simpa [plantF, Matrix.mulVec, dotProduct, Fin.sum_univ_two] using congrFun hz 0
      have h1 : z = 0 ∨ v 1 = 0 := by simpa [plantF, Matrix.mulVec, dotProduct, Fin.sum_univ_two] using (congrFun hz 1).symm
      rcases h1 with h1 | h1
      · rw [h1]; norm_num
      · rw [h1] at h0
        rcases mul_eq_zero.1 h0.symm with h2 | h2
        · rw [h2]; norm_num
        · exact absurd (funext fun i => by fin_cases i; exact h2; exact h1) hv
    · obtain ⟨h1, h2⟩ := hdisc
      rw [Matrix.trace_fin_two] at h1
      rw [Matrix.det_fin_two] at h2
      simp only [Matrix.add_apply, Matrix.smul_apply, Matrix.one_apply_eq, smul_eq_mul]
      rw [Matrix.one_apply_ne (by decide), Matrix.one_apply_ne (by decide)]
      nlinarith
    · have hY := hgram _ (guess_lyap (1 / 2) hU hA hZ)
      have hZY : Z = (exactExt.schur plantF).2ᵀ * !![4, -2; -2, 2] * (exactExt.schur plantF).2 := by rw [← hY]; exact (unsandwich hU' hU').symm
      have hYp : (!![4, -2; -2, 2] : Matrix (Fin 2) (Fin 2) ℝ).PosSemidef := by
        refine PosSemidef.of_dotProduct_mulVec_nonneg ?_ fun x => ?_
        · rw [IsHermitian, conjTranspose_eq_transpose_of_trivial]
          ext i j
          fin_cases i <;> fin_cases j <;> simp
        · rw [star_trivial]
          simp [dotProduct, Matrix.mulVec, Fin.sum_univ_two]
          nlinarith [sq_nonneg (2 * x 0 - x 1), sq_nonneg (x 1)]
      have hZp : Z.PosSemidef := by
        rw [hZY]
        have := hYp.conjTranspose_mul_mul_same (exactExt.schur plantF).2
        rwa [conjTranspose_eq_transpose_of_trivial] at this
      refine ⟨exact_svd Z hZp, ?_⟩
      obtain ⟨a, b, ha, hb, hsum, hprod, hall⟩ := sv_two exactExt Z (exact_svd Z hZp)
      have htr : (Z * Zᵀ).trace = 28 := by
        rw [symm_of_psd hZp]
        have h1 : ((exactExt.schur plantF).2 * Z * (exactExt.schur plantF).2ᵀ * ((exactExt.schur plantF).2 * Z * (exactExt.schur plantF).2ᵀ)).trace = (Z * Z).trace := by
          rw [sandwich hU', Matrix.trace_mul_comm, ← Matrix.mul_assoc, hU', Matrix.one_mul]
        rw [← h1, hY, Matrix.trace_fin_two]
        simp [Matrix.mul_apply, Fin.sum_univ_two]; norm_num
      have hdet : Z.det = 4 := by
        have h1 := congrArg Matrix.det hY
        rw [Matrix.det_mul, Matrix.det_mul, mul_comm (exactExt.schur plantF).2.det, mul_assoc, hdU, mul_one, Matrix.det_fin_two_of] at h1
        rw [h1]; norm_num
      rw [htr] at hsum
      rw [hdet] at hprod
      have hab : a * b = 4 := (pow_left_inj₀ (mul_nonneg ha hb) (by norm_num) two_ne_zero).1 hprod
      have ha6 : a ≤ 6 := by nlinarith [sq_nonneg b]
      have hb6 : b ≤ 6 := by nlinarith [sq_nonneg a]
      intro k
      rcases hall k with h | h
      · rw [h]; by_contra hc; rw [not_lt] at hc; nlinarith
      · rw [h]; by_contra hc; rw [not_lt] at hc; nlinarith
  refine ⟨hg, by rw [hB, Matrix.det_fin_two_of]; norm_num, ?_⟩
  have hreg : Regular exactExt ((exactExt.schur plantF).1 + (1 / 2 : ℝ) • (1 : Matrix (Fin 2) (Fin 2) ℝ)) := by
    obtain ⟨h1, h2⟩ := hdisc
    rw [Matrix.trace_fin_two] at h1
    rw [Matrix.det_fin_two] at h2
    refine regular_two _ _ hg.schurShift hg.real ?_ ?_
    · rw [Matrix.trace_fin_two]
      simp only [Matrix.add_apply, Matrix.smul_apply, Matrix.one_apply_eq, smul_eq_mul]
      intro h; linarith
    · rw [Matrix.det_fin_two]
      simp only [Matrix.add_apply, Matrix.smul_apply, Matrix.one_apply_eq, smul_eq_mul]
      rw [Matrix.one_apply_ne (by decide), Matrix.one_apply_ne (by decide)]
      intro h; nlinarith
  obtain ⟨X, Y, W, hX, hWY, -, -, hXW, hY, -⟩ := initRaw_decay exactExt exact_solve (1 / 2) plantF B hg.schur hg.schurShift hreg hg.real hg.svd
  refine ⟨X, hX, ?_⟩
  have hW : W = !![1 / 2, 1 / 2; 1 / 2, 1] := by
    have h1 : (!![4, -2; -2, 2] : Matrix (Fin 2) (Fin 2) ℝ) * !![1 / 2, 1 / 2; 1 / 2, 1] = 1 := by
      ext i j
      fin_cases i <;> fin_cases j <;> simp [Matrix.mul_apply, Fin.sum_univ_two] <;> norm_num
    calc W = W * (Y * !![1 / 2, 1 / 2; 1 / 2, 1]) := by rw [hgram Y hY, h1, Matrix.mul_one]
      _ = _ := by rw [← Matrix.mul_assoc, hWY, Matrix.one_mul]
  have hX10 : (X - Xᵀ) 1 0 = 1 / 2 := by
    rw [hXW, hB, second_row, hW]; simp
  have := le_frob (X - Xᵀ) 1 0
  rw [hX10] at this
  refine lt_of_lt_of_le ?_ this
  rw [abs_of_pos (by norm_num)]; norm_num

/-- C176 applies to a scalar plant, and `oc::care` returns a matrix there. -/
example : ∃ A B C : Matrix (Fin 1) (Fin 1) ℝ, B.PosSemidef ∧ C.PosSemidef ∧ Detectable A C ∧ ¬ Hurwitz A ∧ GuessOk demo (shift demo (demo.schur A).1) A B ∧
    (∀ X : Matrix (Fin 1) (Fin 1) ℝ, Xᵀ = X) ∧ (∀ Y, RealAt demo A B Y) ∧ ∃ S, carePolymath demo A B C = some S := by
  have ht : ∀ X : Matrix (Fin 1) (Fin 1) ℝ, Xᵀ = X := fun X => by
    ext i j; rw [Matrix.transpose_apply, Subsingleton.elim i j]
  set A : Matrix (Fin 1) (Fin 1) ℝ := fun _ _ => 1 / 4 with hA
  set C : Matrix (Fin 1) (Fin 1) ℝ := fun _ _ => 3 / 16 + 1 / 10 ^ 6 with hC
  have hA0 : ∀ i j, A i j = 1 / 4 := fun _ _ => rfl
  have hC0 : ∀ i j, C i j = 3 / 16 + 1 / 10 ^ 6 := fun _ _ => rfl
  have hshift : shift demo (demo.schur A).1 = 1 / 2 := by
    have : (demo.eigRe (demo.schur A).1) = fun _ => 1 / 4 := rfl
    unfold shift
    rw [this, Finset.inf'_const]
    norm_num
  have hv1 : ∀ (z : ℂ) (v : Fin 1 → ℂ), v ≠ 0 → A.map (fun r => (r : ℂ)) *ᵥ v = z • v → z = 1 / 4 := by
    intro z v hv hz
    have h0 := congrFun hz 0
    simp [Matrix.mulVec, dotProduct, hA0] at h0
    rcases h0 with h0 | h0
    · rw [← h0]; norm_num
    · exact absurd (funext fun i => by rw [Subsingleton.elim i 0]; exact h0) hv
  have hg : GuessOk demo (1 / 2) A 1 := by
    refine ⟨by norm_num, fun z v hv hz => ?_, demo_schur _, demo_schur _, demo_real_one _, fun Z hZ => ?_⟩
    · rw [hv1 z v hv hz]; norm_num
    · have h := congrFun (congrFun hZ 0) 0
      have hZ0 : Z 0 0 = 4 / 3 := by
        change (((A + (1 / 2 : ℝ) • (1 : Matrix (Fin 1) (Fin 1) ℝ)) * Z + Z * (A + (1 / 2 : ℝ) • (1 : Matrix (Fin 1) (Fin 1) ℝ))ᵀ :
          Matrix (Fin 1) (Fin 1) ℝ)) 0 0
          = ((2 : ℝ) • ((1 : Matrix (Fin 1) (Fin 1) ℝ)ᵀ * 1) * (1ᵀ * 1)ᵀ : Matrix (Fin 1) (Fin 1) ℝ) 0 0 at h
        simp [Matrix.add_mul, Matrix.mul_add, Matrix.mul_apply, hA0] at h
        linarith
      refine ⟨⟨?_, ?_, fun k => ?_, ?_⟩, fun k => ?_⟩
      · change (1 : Matrix (Fin 1) (Fin 1) ℝ) * 1ᵀ = 1
        simp
      · change (1 : Matrix (Fin 1) (Fin 1) ℝ) * 1ᵀ = 1
        simp
      · change 0 ≤ Z _ _
        rw [Subsingleton.elim (⟨k, _⟩ : Fin 1) 0, hZ0]; norm_num
      · change Z = 1 * Matrix.diagonal _ * 1ᵀ
        rw [one_eq_iff, Matrix.transpose_one, Matrix.mul_one, Matrix.one_mul, Matrix.diagonal_apply_eq]
        rfl
      · change 1 / 10 ^ 6 < Z _ _
        rw [Subsingleton.elim (⟨k, _⟩ : Fin 1) 0, hZ0]; norm_num
  refine ⟨A, 1, C, Matrix.PosSemidef.one, ?_, ?_, ?_, hshift ▸ hg, ht, fun Y => ⟨demo_schur _, demo_real_one _⟩, ?_⟩
  · refine PosSemidef.of_dotProduct_mulVec_nonneg (by rw [IsHermitian, conjTranspose_eq_transpose_of_trivial, ht]) fun x => ?_
    rw [star_trivial]
    simp [dotProduct, Matrix.mulVec, hC0]
    nlinarith [mul_self_nonneg (x 0)]
  · intro z v hv hz _ h
    have h0 := congrFun h 0
    simp [Matrix.mulVec, dotProduct, hC0] at h0
    rcases h0 with h0 | h0
    · have := congrArg Complex.re h0
      norm_num at this
    · exact hv (funext fun i => by rw [Subsingleton.elim i 0]; exact h0)
  · intro hH
    have := hH (1 / 4) (fun _ => 1) (fun h => one_ne_zero (congrFun h 0)) (by
      funext i
      simp [Matrix.mulVec, dotProduct, hA0])
    norm_num at this
  · obtain ⟨X, W, hX, hW, hXW, hdec, -⟩ := initRaw_stable demo demo_solve (1 / 2) A 1 hg
    have hX0 : X 0 0 = 3 / 4 := by
      have hWpos : 0 < W 0 0 := by
        have := hW.dotProduct_mulVec_pos (x := fun _ => 1) (fun h => one_ne_zero (congrFun h 0))
        simpa [dotProduct, Matrix.mulVec] using this
      have h0 := congrFun (congrFun hdec 0) 0
      simp [ht, Matrix.mul_apply, hA0] at h0
      have : W 0 0 * (3 / 4 - X 0 0) = 0 := by linarith
      rcases mul_eq_zero.1 this with h | h
      · exact absurd h hWpos.ne'
      · linarith
    have hsym : initSym demo A 1 X = X := by
      unfold initSym
      rw [if_neg]
      rw [ht, sub_self]
      simp only [frob, Matrix.zero_apply, mul_zero, Finset.sum_const_zero, Real.sqrt_zero]
      norm_num
    have hres : residual A 1 C X 0 0 = 1 / 10 ^ 6 := by
      simp [residual, Matrix.mul_apply, ht, hX0, hA0, hC0]; norm_num
    have hgood : GoodAt demo A 1 X := ⟨demo_schur _, demo_regular_one _ (by simp [Matrix.mul_apply, hA0, hX0]; norm_num), demo_real_one _⟩
    have hd' : direction demo A 1 C X 0 0 = 1 / 10 ^ 6 := by
      have hH0 := congrFun (congrFun (direction_solves demo demo_solve A 1 C X hgood) 0) 0
      rw [ht] at hH0
      simp only [Matrix.one_mul, Matrix.neg_apply, Matrix.add_apply, Matrix.sub_apply, Matrix.mul_apply, Finset.univ_unique, Fin.default_eq_zero,
        Finset.sum_singleton, hres, hX0, hA0] at hH0
      linarith
    have hc : 0 < (direction demo A 1 C X * 1 * direction demo A 1 C X * (direction demo A 1 C X * 1 * direction demo A 1 C X)).trace := by
      simp [Matrix.trace, Matrix.mul_apply, hd']
    obtain ⟨t, h1, -, -⟩ := lineSearch_minimises demo demo_roots (residual A 1 C X * residual A 1 C X).trace
      (residual A 1 C X * (direction demo A 1 C X * 1 * direction demo A 1 C X)).trace _ hc
    have hst : newtonStep demo A 1 C X = some (X + t • direction demo A 1 C X, frob (residual A 1 C X)) := by
      unfold newtonStep; simp only [h1]
    have herr : ¬ 1 / 10 ^ 5 < frob (residual A 1 C X) := by
      rw [not_lt]
      simp only [frob, Finset.univ_unique, Fin.default_eq_zero, Finset.sum_singleton, hres]
      rw [Real.sqrt_mul_self (by norm_num)]; norm_num
    refine ⟨X + t • direction demo A 1 C X, ?_⟩
    unfold carePolymath initCare
    rw [hshift, hX]
    simp only [hsym]
    unfold newton
    rw [newtonLoop, hst]
    simp only [if_neg herr]

end Cases

end PolyMPC.Lqr
