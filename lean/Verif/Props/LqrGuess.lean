import Verif.Props.LqrStable
import Mathlib.LinearAlgebra.Matrix.Charpoly.Coeff

/-!
# The initial guess of the Riccati iteration (C177)
-/

set_option linter.unusedSectionVars false
set_option linter.unusedVariables false

namespace PolyMPC.Lqr
open Matrix Spec Set

variable (e : Ext) {n : ℕ}

/-! ### Real eigenvalues -/

theorem skew_sq {W K : Matrix (Fin n) (Fin n) ℝ} (hW : W.PosDef) (hK : W * K + Kᵀ * W = 0) (z : Fin n → ℝ) (h : K *ᵥ (K *ᵥ z) = 0) : K *ᵥ z = 0 := by
  by_contra hne
  have hpos := hW.dotProduct_mulVec_pos hne
  rw [star_trivial] at hpos
  have h1 : Kᵀ * W = -(W * K) := by rw [eq_neg_iff_add_eq_zero, add_comm]; exact hK
  have h2 : (K *ᵥ z) ⬝ᵥ W *ᵥ (K *ᵥ z) = z ⬝ᵥ (Kᵀ * W) *ᵥ (K *ᵥ z) := by
    rw [← Matrix.mulVec_mulVec, Matrix.dotProduct_mulVec z, Matrix.vecMul_transpose]
  rw [h2, h1, Matrix.neg_mulVec, ← Matrix.mulVec_mulVec, h, Matrix.mulVec_zero, neg_zero, dotProduct_zero] at hpos
  exact lt_irrefl _ hpos

/-- A nilpotent matrix that is skew for an inner product is zero. -/
theorem skew_nilpotent {W K : Matrix (Fin n) (Fin n) ℝ} (hW : W.PosDef) (hK : W * K + Kᵀ * W = 0) : ∀ m : ℕ, K ^ m = 0 → K = 0 ∨ m = 0
  | 0, _ => Or.inr rfl
  | 1, h => Or.inl (by rwa [pow_one] at h)
  | m + 2, h => by
    have hm : K ^ (m + 1) = 0 := by
      ext i j
      have hz : ∀ z : Fin n → ℝ, K ^ (m + 1) *ᵥ z = 0 := by
        intro z
        have := skew_sq hW hK (K ^ m *ᵥ z) (by
          rw [Matrix.mulVec_mulVec, Matrix.mulVec_mulVec, ← pow_two, ← pow_add, add_comm, h, Matrix.zero_mulVec])
        rwa [Matrix.mulVec_mulVec, ← pow_succ'] at this
      have := congrFun (hz (Pi.single j 1)) i
      rwa [Matrix.mulVec_single_one] at this
    rcases skew_nilpotent hW hK (m + 1) hm with h' | h'
    · exact Or.inl h'
    · omega

/-- C177. The closed loop of the first guess has only real eigenvalues in the single case where it is a multiple of the identity. -/
theorem guess_real_only_scalar (β : ℝ) (L W : Matrix (Fin n) (Fin n) ℝ) (hW : W.PosDef) (h : W * L + Lᵀ * W = -(2 * β) • W) (hA : SchurOk e Lᵀ)
    (ht : RealSpectrum e Lᵀ) : L = -β • (1 : Matrix (Fin n) (Fin n) ℝ) := by
  have hdiag : ∀ i, (e.schur Lᵀ).1 i i = -β := by
    intro i
    obtain ⟨v, hv, hLv⟩ := schur_diag_eig e L hA ht i
    refine decay_spectrum β L W hW h _ 0 v 0 (Or.inl hv) ?_ ?_
    · rw [hLv, smul_zero, sub_zero]
    · rw [Matrix.mulVec_zero, zero_smul, smul_zero, add_zero]
  set K := L + β • (1 : Matrix (Fin n) (Fin n) ℝ) with hKdef
  have hKs : W * K + Kᵀ * W = 0 := by
    rw [hKdef, Matrix.transpose_add, Matrix.transpose_smul, Matrix.transpose_one, Matrix.mul_add, Matrix.add_mul, Matrix.mul_smul, Matrix.smul_mul,
      Matrix.mul_one, Matrix.one_mul, show W * L + β • W + (Lᵀ * W + β • W) = (W * L + Lᵀ * W) + (2 * β) • W by module, h]
    module
  have hnil : K ^ n = 0 := by
    obtain ⟨hU, hA⟩ := hA
    unfold RealSpectrum at ht
    revert hU hA ht hdiag
    generalize (e.schur Lᵀ).1 = T
    generalize (e.schur Lᵀ).2 = U
    intro ht hdiag hU hA
    have hU' := orth_left hU
    set S := T + β • (1 : Matrix (Fin n) (Fin n) ℝ) with hS
    have hST : S.IsUpperTriangular := by
      intro a b hab
      have hab' : b < a := hab
      rw [hS, Matrix.add_apply, ht a b hab', Matrix.smul_apply, Matrix.one_apply_ne hab'.ne', smul_zero, add_zero]
    have hSn : S ^ n = 0 := by
      have h1 := Matrix.aeval_self_charpoly S
      rw [Matrix.charpoly_of_isUpperTriangular _ hST] at h1
      have h2 : ∀ i, S i i = 0 := fun i => by rw [hS, Matrix.add_apply, hdiag i, Matrix.smul_apply, Matrix.one_apply_eq]; simp
      simp only [h2, map_zero, sub_zero, Finset.prod_const, Finset.card_univ, Fintype.card_fin, map_pow, Polynomial.aeval_X] at h1
      exact h1
    have hKS : Kᵀ = U * S * Uᵀ := by
      rw [hKdef, Matrix.transpose_add, Matrix.transpose_smul, Matrix.transpose_one, hA, hS, Matrix.mul_add, Matrix.add_mul, Matrix.mul_smul, Matrix.mul_one,
        Matrix.smul_mul, hU]
    have hpow : ∀ m : ℕ, Kᵀ ^ m = U * S ^ m * Uᵀ := by
      intro m
      induction m with
      | zero => rw [pow_zero, pow_zero, Matrix.mul_one, hU]
      | succ m ih => rw [pow_succ, ih, hKS, sandwich hU', ← pow_succ]
    have h3 := hpow n
    rw [hSn, Matrix.mul_zero, Matrix.zero_mul, ← Matrix.transpose_pow] at h3
    have := congrArg Matrix.transpose h3
    rwa [Matrix.transpose_transpose, Matrix.transpose_zero] at this
  rcases skew_nilpotent hW hKs n hnil with h0 | h0
  · rw [neg_smul, eq_neg_iff_add_eq_zero]; exact h0
  · subst h0; exact Subsingleton.elim _ _

/-- C177. With an input matrix `B` that is singular, the closed loop of the first guess has eigenvalues that are not real. -/
theorem guess_not_real (hs : SolveOk e) (β : ℝ) (A B X : Matrix (Fin n) (Fin n) ℝ) (hg : GuessOk e β A B) (hB : B.det = 0) (hX : initRaw e β A B = some X)
    (hsch : SchurOk e (A - B * X)ᵀ) : ¬ RealSpectrum e (A - B * X)ᵀ := by
  intro ht
  obtain ⟨X', W, h1, hW, -, hdec, -⟩ := initRaw_stable e hs β A B hg
  rw [hX, Option.some.injEq] at h1
  subst h1
  have h2 := guess_real_only_scalar e β _ W hW hdec hsch ht
  have h3 : A + β • (1 : Matrix (Fin n) (Fin n) ℝ) = B * X := by
    rw [neg_smul, sub_eq_iff_eq_add] at h2
    conv_lhs => rw [h2]
    abel
  apply hg.right.det
  rw [h3, Matrix.det_mul, hB, zero_mul]

/-! ### Two states -/

/-- For a two-state matrix with a nonzero entry below the diagonal of its Schur factor, only special right-hand sides are solved. -/
theorem lyapunov_complex_corner (hs : SolveOk e) (A Q : Matrix (Fin 2) (Fin 2) ℝ) (hA : SchurOk e A) (hr : Regular e A)
    (hc : (e.schur A).1 1 0 ≠ 0) (htr : A.trace ≠ 0) (hQs : Qᵀ = Q) (h : SolvesLyapunov A Q (lyapunov e A Q)) :
    ((e.schur A).2ᵀ * Q * (e.schur A).2) 0 0 = 0 := by
  have h0 := (lyapunov_solves_iff e hs A Q hA hr).1 h
  obtain ⟨hU, hA⟩ := hA
  generalize lyapunov e A Q = X at h h0
  revert hU hA hc h0
  generalize (e.schur A).1 = T
  generalize (e.schur A).2 = U
  intro hc hU hA h0
  have hU' := orth_left hU
  have htrT : A.trace = T.trace := by
    rw [hA, Matrix.trace_mul_comm, ← Matrix.mul_assoc, hU', Matrix.one_mul]
  have hEq : T * (Uᵀ * X * U) + Uᵀ * X * U * Tᵀ = Uᵀ * Q * U := by
    unfold SolvesLyapunov at h
    rw [← h, hA, Matrix.mul_add, Matrix.add_mul]
    congr 1
    · symm
      calc Uᵀ * (U * T * Uᵀ * X) * U = (Uᵀ * U) * T * (Uᵀ * X * U) := by simp only [Matrix.mul_assoc]
        _ = _ := by rw [hU', Matrix.one_mul]
    · symm
      calc Uᵀ * (X * (U * T * Uᵀ)ᵀ) * U = Uᵀ * X * U * Tᵀ * (Uᵀ * U) := by
            simp only [Matrix.transpose_mul, Matrix.transpose_transpose, Matrix.mul_assoc]
        _ = _ := by rw [hU', Matrix.mul_one]
  have hQ1s : (Uᵀ * Q * U)ᵀ = Uᵀ * Q * U := by
    simp only [Matrix.transpose_mul, Matrix.transpose_transpose, hQs, Matrix.mul_assoc]
  generalize Uᵀ * X * U = Y at h0 hEq
  generalize Uᵀ * Q * U = Z at hEq hQ1s ⊢
  rw [htrT, Matrix.trace_fin_two] at htr
  have hY0 : Y 0 0 = 0 := by
    have := h0 0 1
    simp only [Fin.sum_univ_two] at this
    simpa [hc] using this
  have hY1 : Y 1 0 = 0 := by
    have := h0 1 1
    simp only [Fin.sum_univ_two] at this
    simpa [hc] using this
  have hz : ∀ i j, (T * Y + Y * Tᵀ) i j = Z i j := fun i j => by rw [hEq]
  simp only [Matrix.add_apply, Matrix.mul_apply, Matrix.transpose_apply, Fin.sum_univ_two] at hz
  have h00 := hz 0 0
  have h01 := hz 0 1
  have h10 := hz 1 0
  have hs' : Z 0 1 = Z 1 0 := congrFun (congrFun hQ1s 1) 0
  rw [hY0, hY1] at h00
  rw [hY0] at h01 h10
  rw [hY1] at h10
  have : (T 0 0 + T 1 1) * Y 0 1 = 0 := by linarith
  rcases mul_eq_zero.1 this with h | h
  · exact absurd h htr
  · rw [h] at h00; linarith


theorem skew_two {W K : Matrix (Fin 2) (Fin 2) ℝ} (hW : W.PosDef) (hK : W * K + Kᵀ * W = 0) (v : Fin 2 → ℝ) (hv : v ≠ 0) (h : K *ᵥ v = 0) : K = 0 := by
  have hWs : Wᵀ = W := by simpa using hW.isHermitian.eq
  have hS : W * K + (W * K)ᵀ = 0 := by rw [Matrix.transpose_mul, hWs]; exact hK
  have hSv : (W * K) *ᵥ v = 0 := by rw [← Matrix.mulVec_mulVec, h, Matrix.mulVec_zero]
  have hS0 : W * K = 0 := by
    generalize W * K = S at hS hSv
    have e00 : S 0 0 + S 0 0 = 0 := congrFun (congrFun hS 0) 0
    have e01 : S 0 1 + S 1 0 = 0 := congrFun (congrFun hS 0) 1
    have e11 : S 1 1 + S 1 1 = 0 := congrFun (congrFun hS 1) 1
    have v0 : S 0 0 * v 0 + S 0 1 * v 1 = 0 := by simpa [Matrix.mulVec, dotProduct, Fin.sum_univ_two] using congrFun hSv 0
    have v1 : S 1 0 * v 0 + S 1 1 * v 1 = 0 := by simpa [Matrix.mulVec, dotProduct, Fin.sum_univ_two] using congrFun hSv 1
    have s00 : S 0 0 = 0 := by linarith
    have s11 : S 1 1 = 0 := by linarith
    have s01 : S 0 1 = 0 := by
      by_contra hne
      rw [s00, zero_mul, zero_add] at v0
      rw [s11, zero_mul, add_zero, show S 1 0 = -S 0 1 by linarith] at v1
      apply hv
      funext i
      fin_cases i
      · exact (mul_eq_zero.1 v1).resolve_left (neg_ne_zero.2 hne)
      · exact (mul_eq_zero.1 v0).resolve_left hne
    ext i j
    fin_cases i <;> fin_cases j
    · exact s00
    · exact s01
    · show S 1 0 = 0
      linarith
    · exact s11
  have hu := hW.isUnit
  obtain ⟨u, hu⟩ := hu
  have := congrArg (fun M => (↑u⁻¹ : Matrix (Fin 2) (Fin 2) ℝ) * M) hS0
  simp only [Matrix.mul_zero] at this
  rwa [← Matrix.mul_assoc, ← hu, Units.inv_mul, Matrix.one_mul] at this

/-- C177. Two states and a singular input matrix (one input, for example): the Lyapunov equation that is to make the guess symmetric is not solved. -/
theorem sym_guess_wrong (hs : SolveOk e) (β : ℝ) (A B X : Matrix (Fin 2) (Fin 2) ℝ) (hg : GuessOk e β A B) (hBp : B.PosSemidef) (hB : B.det = 0)
    (hX : initRaw e β A B = some X) (hsch : SchurOk e (A - B * X)ᵀ) (hasym : 1 / 10 ^ 12 < frob (X - Xᵀ)) :
    ¬ ((A - B * X)ᵀ * initSym e A B X + initSym e A B X * (A - B * X) = -(Xᵀ * B * X + (1 / 2 : ℝ) • (1 : Matrix (Fin 2) (Fin 2) ℝ))) := by
  have hnr := guess_not_real e hs β A B X hg hB hX hsch
  obtain ⟨X', W, h1, hW, -, hdec, -⟩ := initRaw_stable e hs β A B hg
  rw [hX, Option.some.injEq] at h1
  subst h1
  have h10 : (e.schur (A - B * X)ᵀ).1 1 0 ≠ 0 := by
    intro h0
    apply hnr
    intro i j hij
    fin_cases i <;> fin_cases j
    · exact absurd hij (lt_irrefl _)
    · exact absurd hij (by decide)
    · exact h0
    · exact absurd hij (lt_irrefl _)
  have h0 : initSym e A B X = lyapunov e (A - B * X)ᵀ (-(Xᵀ * B * X + (1 / 2 : ℝ) • (1 : Matrix (Fin 2) (Fin 2) ℝ))) := by
    unfold initSym; rw [if_pos hasym]
  rw [h0]
  generalize A - B * X = L at *
  have hBs := symm_of_psd hBp
  set K := L + β • (1 : Matrix (Fin 2) (Fin 2) ℝ) with hKdef
  have hKs : W * K + Kᵀ * W = 0 := by
    rw [hKdef, Matrix.transpose_add, Matrix.transpose_smul, Matrix.transpose_one, Matrix.mul_add, Matrix.add_mul, Matrix.mul_smul, Matrix.smul_mul,
      Matrix.mul_one, Matrix.one_mul, show W * L + β • W + (Lᵀ * W + β • W) = (W * L + Lᵀ * W) + (2 * β) • W by module, hdec]
    module
  have htr : Lᵀ.trace ≠ 0 := by
    obtain ⟨u, hu⟩ := hW.isUnit
    have h2 := congrArg (fun M => ((↑u⁻¹ : Matrix (Fin 2) (Fin 2) ℝ) * M).trace) hdec
    simp only [Matrix.mul_add, Matrix.trace_add, Matrix.mul_smul, Matrix.trace_smul, smul_eq_mul] at h2
    have h3 : ((↑u⁻¹ : Matrix (Fin 2) (Fin 2) ℝ) * (W * L)).trace = L.trace := by rw [← Matrix.mul_assoc, ← hu, Units.inv_mul, Matrix.one_mul]
    have h4 : ((↑u⁻¹ : Matrix (Fin 2) (Fin 2) ℝ) * (Lᵀ * W)).trace = L.trace := by
      rw [Matrix.trace_mul_comm, Matrix.mul_assoc, ← hu, Units.mul_inv, Matrix.mul_one, Matrix.trace_transpose]
    have h5 : ((↑u⁻¹ : Matrix (Fin 2) (Fin 2) ℝ) * W).trace = 2 := by rw [← hu, Units.inv_mul, Matrix.trace_one]; simp
    rw [h3, h4, h5] at h2
    rw [Matrix.trace_transpose]
    have := hg.pos
    intro h6
    rw [h6] at h2
    linarith
  have hreg : Regular e Lᵀ := by
    intro i hdet
    have hLr : (L - (-(e.schur Lᵀ).1 i i) • (1 : Matrix (Fin 2) (Fin 2) ℝ)).det = 0 := by
      rw [neg_smul, sub_neg_eq_add, ← Matrix.det_transpose, Matrix.transpose_add, Matrix.transpose_smul, Matrix.transpose_one]
      have : Lᵀ + (e.schur Lᵀ).1 i i • (1 : Matrix (Fin 2) (Fin 2) ℝ)
          = (e.schur Lᵀ).2 * ((e.schur Lᵀ).1 + (e.schur Lᵀ).1 i i • (1 : Matrix (Fin 2) (Fin 2) ℝ)) * (e.schur Lᵀ).2ᵀ := by
        rw [Matrix.mul_add, Matrix.add_mul, ← hsch.2, Matrix.mul_smul, Matrix.mul_one, Matrix.smul_mul, hsch.1]
      rw [this, Matrix.det_mul, Matrix.det_mul, hdet]; ring
    obtain ⟨v, hv, hLv⟩ := eig_of_det hLr
    have hr := decay_spectrum β L W hW hdec _ 0 v 0 (Or.inl hv) (by rw [hLv, smul_zero, sub_zero])
      (by rw [Matrix.mulVec_zero, zero_smul, smul_zero, add_zero])
    have hKv : K *ᵥ v = 0 := by
      rw [hKdef, Matrix.add_mulVec, hLv, hr, Matrix.smul_mulVec, Matrix.one_mulVec, neg_smul, neg_add_cancel]
    have hK0 := skew_two hW hKs v hv hKv
    have hL : Lᵀ = -β • (1 : Matrix (Fin 2) (Fin 2) ℝ) := by
      have : L = -β • (1 : Matrix (Fin 2) (Fin 2) ℝ) := by rw [neg_smul, eq_neg_iff_add_eq_zero]; exact hK0
      rw [this, Matrix.transpose_smul, Matrix.transpose_one]
    have hU' := orth_left hsch.1
    have hT : (e.schur Lᵀ).1 = -β • (1 : Matrix (Fin 2) (Fin 2) ℝ) := by
      have h7 : (e.schur Lᵀ).2ᵀ * Lᵀ * (e.schur Lᵀ).2 = (e.schur Lᵀ).1 := by
        have h8 := unsandwich (D := (e.schur Lᵀ).1) hU' hU'
        rwa [← hsch.2] at h8
      rw [← h7]
      generalize (e.schur Lᵀ).2 = U at hU'
      rw [hL, Matrix.mul_smul, Matrix.mul_one, Matrix.smul_mul, hU']
    rw [hT] at h10
    exact h10 (by simp)
  intro hsol
  have hcorner := lyapunov_complex_corner e hs Lᵀ (-(Xᵀ * B * X + (1 / 2 : ℝ) • (1 : Matrix (Fin 2) (Fin 2) ℝ))) hsch hreg h10 htr (by
    simp only [Matrix.transpose_neg, Matrix.transpose_add, Matrix.transpose_mul, Matrix.transpose_smul, Matrix.transpose_one,
      Matrix.transpose_transpose, hBs, Matrix.mul_assoc]) (by
    unfold SolvesLyapunov
    rw [Matrix.transpose_transpose]; exact hsol)
  have hU' := orth_left hsch.1
  generalize (e.schur Lᵀ).2 = U at hcorner hU'
  have h00 : (Uᵀ * -(Xᵀ * B * X + (1 / 2 : ℝ) • (1 : Matrix (Fin 2) (Fin 2) ℝ)) * U) 0 0
      = -((fun i => U i 0) ⬝ᵥ (Xᵀ * B * X) *ᵥ (fun i => U i 0)) - 1 / 2 := by
    rw [Matrix.mul_neg, Matrix.neg_mul, Matrix.mul_add, Matrix.add_mul, Matrix.mul_smul, Matrix.mul_one, Matrix.smul_mul, hU', Matrix.neg_apply,
      Matrix.add_apply, Matrix.smul_apply, Matrix.one_apply_eq, smul_eq_mul]
    rw [Matrix.mul_assoc Uᵀ, Matrix.mul_apply]
    simp only [Matrix.transpose_apply, dotProduct, Matrix.mulVec, Matrix.mul_apply]
    ring
  rw [hcorner, quad_congr] at h00
  have := quad_nonneg hBp (X *ᵥ fun i => U i 0)
  linarith

end PolyMPC.Lqr
