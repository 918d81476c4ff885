import Verif.Props.Lqr

import Mathlib.Algebra.Order.Star.Real

/-!
# Pseudo-inverse, initial guess, CARE, gain, controllability (C51, C86-C90)
-/

set_option linter.unusedSectionVars false
set_option linter.unusedVariables false

namespace PolyMPC.Lqr
open Matrix Spec Set

variable (e : Ext)

/-! ### Pseudo-inverse -/

section Pinv
variable {n : ℕ}

/-- The singular value decomposition of this square matrix is one. -/
def SvdOk (A : Matrix (Fin n) (Fin n) ℝ) : Prop :=
  (e.svd A).1 * (e.svd A).1ᵀ = 1 ∧ (e.svd A).2.2 * (e.svd A).2.2ᵀ = 1 ∧ (∀ k, 0 ≤ (e.svd A).2.1 k) ∧
    A = (e.svd A).1 * Matrix.diagonal (fun k : Fin n => (e.svd A).2.1 (k.cast (min_self n).symm)) * (e.svd A).2.2ᵀ

theorem pinv_square (A : Matrix (Fin n) (Fin n) ℝ) :
    pinv e A = some ((e.svd A).2.2 * Matrix.diagonal (fun k : Fin n => invertSv ((e.svd A).2.1 (k.cast (min_self n).symm))) * (e.svd A).1ᵀ) := by
  unfold pinv
  rw [dif_pos rfl]
  refine congrArg some ?_
  ext i j
  rw [Matrix.mul_apply]
  refine Finset.sum_congr rfl fun k _ => ?_
  rw [Matrix.mul_diagonal, Matrix.transpose_apply]
  rfl

/-- C86. A matrix that is not square is not accepted. -/
theorem pinv_not_square {r c : ℕ} (A : Matrix (Fin r) (Fin c) ℝ) (h : r ≠ c) : pinv e A = none := dif_neg h

theorem sandwich {U V D E : Matrix (Fin n) (Fin n) ℝ} (hV : Vᵀ * V = 1) : U * D * Vᵀ * (V * E * Uᵀ) = U * (D * E) * Uᵀ := by
  calc U * D * Vᵀ * (V * E * Uᵀ) = U * D * (Vᵀ * V) * E * Uᵀ := by simp only [Matrix.mul_assoc]
    _ = _ := by rw [hV, Matrix.mul_one]; simp only [Matrix.mul_assoc]

theorem sandwich2 {U V W D E : Matrix (Fin n) (Fin n) ℝ} (hV : Vᵀ * V = 1) : U * D * Vᵀ * (V * E * Wᵀ) = U * (D * E) * Wᵀ := by
  calc U * D * Vᵀ * (V * E * Wᵀ) = U * D * (Vᵀ * V) * E * Wᵀ := by simp only [Matrix.mul_assoc]
    _ = _ := by rw [hV, Matrix.mul_one]; simp only [Matrix.mul_assoc]

theorem unsandwich {U V D : Matrix (Fin n) (Fin n) ℝ} (hU : Uᵀ * U = 1) (hV : Vᵀ * V = 1) : Uᵀ * (U * D * Vᵀ) * V = D := by
  calc Uᵀ * (U * D * Vᵀ) * V = (Uᵀ * U) * D * (Vᵀ * V) := by simp only [Matrix.mul_assoc]
    _ = D := by rw [hU, hV, Matrix.one_mul, Matrix.mul_one]

/-- C86. For a square matrix `pinv` yields the Moore-Penrose inverse exactly when no singular value lies in (0, 1e-6]. -/
theorem pinv_moorePenrose (A : Matrix (Fin n) (Fin n) ℝ) (h : SvdOk e A) :
    ∃ P, pinv e A = some P ∧ (MoorePenrose A P ↔ ∀ k, (e.svd A).2.1 k = 0 ∨ 1 / 10 ^ 6 < (e.svd A).2.1 k) := by
  refine ⟨_, pinv_square e A, ?_⟩
  obtain ⟨hU, hV, hpos, hA⟩ := h
  have hU' := orth_left hU
  have hV' := orth_left hV
  generalize (e.svd A).2.1 = s at *
  generalize (e.svd A).1 = U at *
  generalize (e.svd A).2.2 = V at *
  subst hA
  have hcast : (∀ k, s k = 0 ∨ 1 / 10 ^ 6 < s k) ↔ ∀ k : Fin n, s (k.cast (min_self n).symm) = 0 ∨ 1 / 10 ^ 6 < s (k.cast (min_self n).symm) :=
    ⟨fun h k => h _, fun h k => by have := h (k.cast (min_self n)); simpa using this⟩
  rw [hcast]
  set D : Matrix (Fin n) (Fin n) ℝ := Matrix.diagonal (fun k : Fin n => s (k.cast (min_self n).symm)) with hD
  set E : Matrix (Fin n) (Fin n) ℝ := Matrix.diagonal (fun k : Fin n => invertSv (s (k.cast (min_self n).symm))) with hE
  have hDE : D * E = Matrix.diagonal (fun k : Fin n => s (k.cast (min_self n).symm) * invertSv (s (k.cast (min_self n).symm))) := by
    rw [hD, hE, Matrix.diagonal_mul_diagonal]
  have hED : E * D = D * E := by
    rw [hDE, hD, hE, Matrix.diagonal_mul_diagonal]; congr 1; funext k; ring
  have e1 : U * D * Vᵀ * (V * E * Uᵀ) = U * (D * E) * Uᵀ := sandwich2 hV'
  have e2 : V * E * Uᵀ * (U * D * Vᵀ) = V * (D * E) * Vᵀ := by rw [sandwich2 hU', hED]
  have e3 : U * D * Vᵀ * (V * E * Uᵀ) * (U * D * Vᵀ) = U * (D * E * D) * Vᵀ := by rw [e1, sandwich2 hU']
  have e4 : V * E * Uᵀ * (U * D * Vᵀ) * (V * E * Uᵀ) = V * (D * E * E) * Uᵀ := by rw [e2, sandwich2 hV']
  have hsymm : ∀ (W : Matrix (Fin n) (Fin n) ℝ), (W * (D * E) * Wᵀ)ᵀ = W * (D * E) * Wᵀ := by
    intro W
    have : (D * E)ᵀ = D * E := by rw [hDE, Matrix.diagonal_transpose]
    rw [Matrix.transpose_mul, Matrix.transpose_mul, Matrix.transpose_transpose, this, ← Matrix.mul_assoc]
  unfold MoorePenrose
  rw [e3, e4, e1, e2]
  constructor
  · rintro ⟨h1, -⟩ k
    have h2 : D * E * D = D := by
      have := congrArg (fun Z => Uᵀ * Z * V) h1
      simpa only [unsandwich hU' hV'] using this
    rw [hDE, hD, Matrix.diagonal_mul_diagonal] at h2
    have h3 := congrFun (Matrix.diagonal_injective h2) k
    by_contra hk
    push Not at hk
    unfold invertSv at h3
    rw [if_neg (not_lt.2 hk.2), mul_zero, zero_mul] at h3
    exact hk.1 h3.symm
  · intro hk
    have h2 : D * E * D = D := by
      rw [hDE, hD, Matrix.diagonal_mul_diagonal]
      congr 1; funext k
      rcases hk k with h | h
      · rw [h]; ring
      · have hne : s (k.cast (min_self n).symm) ≠ 0 := (lt_trans (by norm_num) h).ne'
        unfold invertSv; rw [if_pos h]; field_simp
    have h3 : D * E * E = E := by
      rw [hDE, hE, Matrix.diagonal_mul_diagonal]
      congr 1; funext k
      rcases hk k with h | h
      · rw [h]; unfold invertSv; rw [if_neg (by norm_num)]; ring
      · have hne : s (k.cast (min_self n).symm) ≠ 0 := (lt_trans (by norm_num) h).ne'
        unfold invertSv; rw [if_pos h]; field_simp
    rw [h2, h3]
    exact ⟨rfl, rfl, hsymm U, hsymm V⟩

/-- C86. With all singular values above 1e-6 the pseudo-inverse is the inverse. -/
theorem pinv_inverse (A : Matrix (Fin n) (Fin n) ℝ) (h : SvdOk e A) (hs : ∀ k, 1 / 10 ^ 6 < (e.svd A).2.1 k) :
    ∃ P, pinv e A = some P ∧ P * A = 1 ∧ A * P = 1 := by
  have hpos : ∀ k : Fin n, (e.svd A).2.1 (k.cast (min_self n).symm) ≠ 0 := fun k => (lt_trans (by norm_num) (hs _)).ne'
  refine ⟨_, pinv_square e A, ?_⟩
  have key : (e.svd A).2.2 * Matrix.diagonal (fun k : Fin n => invertSv ((e.svd A).2.1 (k.cast (min_self n).symm))) * (e.svd A).1ᵀ * A = 1 := by
    obtain ⟨hU, hV, -, hA⟩ := h
    have hU' := orth_left hU
    have hmul := sandwich2 (U := (e.svd A).2.2) (W := (e.svd A).2.2)
      (D := Matrix.diagonal (fun k : Fin n => invertSv ((e.svd A).2.1 (k.cast (min_self n).symm))))
      (E := Matrix.diagonal (fun k : Fin n => (e.svd A).2.1 (k.cast (min_self n).symm))) hU'
    rw [← hA] at hmul
    rw [hmul, Matrix.diagonal_mul_diagonal]
    rw [show (fun i : Fin n => invertSv ((e.svd A).2.1 (i.cast (min_self n).symm)) * (e.svd A).2.1 (i.cast (min_self n).symm)) = fun _ => 1 from ?_]
    · rw [Matrix.diagonal_one, Matrix.mul_one, hV]
    · funext k
      unfold invertSv; rw [if_pos (hs _), one_div, inv_mul_cancel₀ (hpos k)]
  exact ⟨key, mul_eq_one_comm.1 key⟩

end Pinv

/-! ### Initial guess -/

section Init
variable {n : ℕ}

/-- C88. The first guess of the Newton iteration. When the two decompositions and the Lyapunov equation are exact, with real eigenvalues and `Z`
invertible, there are symmetric `Y` and `W = Y⁻¹` with `X = B' W`, and `V(x) = x' W x` decays at the rate `2 β` along the closed loop `A - B X`. -/
theorem initRaw_decay (hs : SolveOk e) (β : ℝ) (A B : Matrix (Fin n) (Fin n) ℝ) (hA : SchurOk e A)
    (h1 : SchurOk e ((e.schur A).1 + β • (1 : Matrix (Fin n) (Fin n) ℝ))) (h2 : Regular e ((e.schur A).1 + β • (1 : Matrix (Fin n) (Fin n) ℝ)))
    (h3 : RealSpectrum e ((e.schur A).1 + β • (1 : Matrix (Fin n) (Fin n) ℝ)))
    (hsvd : ∀ Z, SolvesLyapunov ((e.schur A).1 + β • (1 : Matrix (Fin n) (Fin n) ℝ)) ((2 : ℝ) • ((e.schur A).2ᵀ * B) * ((e.schur A).2ᵀ * B)ᵀ) Z →
      SvdOk e Z ∧ ∀ k, 1 / 10 ^ 6 < (e.svd Z).2.1 k) :
    ∃ X Y W, initRaw e β A B = some X ∧ W * Y = 1 ∧ Yᵀ = Y ∧ Wᵀ = W ∧ X = Bᵀ * W ∧
      (A + β • (1 : Matrix (Fin n) (Fin n) ℝ)) * Y + Y * (A + β • (1 : Matrix (Fin n) (Fin n) ℝ))ᵀ = (2 : ℝ) • (B * Bᵀ) ∧
      W * (A - B * X) + (A - B * X)ᵀ * W = -(2 * β) • W := by
  have hZ := lyapunov_solves e hs _ ((2 : ℝ) • ((e.schur A).2ᵀ * B) * ((e.schur A).2ᵀ * B)ᵀ) h1 h2 h3
  have hZs := lyapunov_symm e hs _ ((2 : ℝ) • ((e.schur A).2ᵀ * B) * ((e.schur A).2ᵀ * B)ᵀ) h1 h2 h3 (by
    rw [Matrix.smul_mul, Matrix.transpose_smul, Matrix.transpose_mul, Matrix.transpose_transpose])
  obtain ⟨o1, o2⟩ := hsvd _ hZ
  obtain ⟨P, hP, hPZ, hZP⟩ := pinv_inverse e _ o1 o2
  obtain ⟨hU, hA⟩ := hA
  have hraw : initRaw e β A B = some (((e.schur A).2ᵀ * B)ᵀ * P * (e.schur A).2ᵀ) := by
    unfold initRaw
    simp only [hP]
  rw [hraw]
  generalize lyapunov e ((e.schur A).1 + β • (1 : Matrix (Fin n) (Fin n) ℝ)) ((2 : ℝ) • ((e.schur A).2ᵀ * B) * ((e.schur A).2ᵀ * B)ᵀ) = Z at *
  clear h1 h2 h3 hsvd hraw hP o1 o2
  revert hU hA hZ
  generalize (e.schur A).1 = T
  generalize (e.schur A).2 = U
  intro hU hA hZ
  have hU' := orth_left hU
  have hPs : Pᵀ = P := by
    have : Pᵀ * Z = 1 := by
      have := congrArg Matrix.transpose hZP
      rwa [Matrix.transpose_mul, hZs, Matrix.transpose_one] at this
    calc Pᵀ = Pᵀ * (Z * P) := by rw [hZP, Matrix.mul_one]
      _ = P := by rw [← Matrix.mul_assoc, this, Matrix.one_mul]
  have hWY : U * P * Uᵀ * (U * Z * Uᵀ) = 1 := by rw [sandwich hU', hPZ, Matrix.mul_one, hU]
  have hYW : U * Z * Uᵀ * (U * P * Uᵀ) = 1 := mul_eq_one_comm.1 hWY
  have hYs : (U * Z * Uᵀ)ᵀ = U * Z * Uᵀ := by
    simp only [Matrix.transpose_mul, Matrix.transpose_transpose, hZs, Matrix.mul_assoc]
  have hWs : (U * P * Uᵀ)ᵀ = U * P * Uᵀ := by
    simp only [Matrix.transpose_mul, Matrix.transpose_transpose, hPs, Matrix.mul_assoc]
  have hX : (Uᵀ * B)ᵀ * P * Uᵀ = Bᵀ * (U * P * Uᵀ) := by
    simp only [Matrix.transpose_mul, Matrix.transpose_transpose, Matrix.mul_assoc]
  have hlyap : (A + β • (1 : Matrix (Fin n) (Fin n) ℝ)) * (U * Z * Uᵀ) + U * Z * Uᵀ * (A + β • (1 : Matrix (Fin n) (Fin n) ℝ))ᵀ
      = (2 : ℝ) • (B * Bᵀ) := by
    have hAb : A + β • (1 : Matrix (Fin n) (Fin n) ℝ) = U * (T + β • (1 : Matrix (Fin n) (Fin n) ℝ)) * Uᵀ := by
      rw [Matrix.mul_add, Matrix.add_mul, ← hA, Matrix.mul_smul, Matrix.mul_one, Matrix.smul_mul, hU]
    rw [hAb, sandwich hU']
    have e2 : (U * (T + β • (1 : Matrix (Fin n) (Fin n) ℝ)) * Uᵀ)ᵀ = U * (T + β • (1 : Matrix (Fin n) (Fin n) ℝ))ᵀ * Uᵀ := by
      simp only [Matrix.transpose_mul, Matrix.transpose_transpose, Matrix.mul_assoc]
    rw [e2, sandwich hU', ← Matrix.add_mul, ← Matrix.mul_add]
    unfold SolvesLyapunov at hZ
    rw [hZ]
    have e3 : U * ((2 : ℝ) • (Uᵀ * B) * (Uᵀ * B)ᵀ) * Uᵀ = (2 : ℝ) • ((U * Uᵀ) * (B * Bᵀ) * (U * Uᵀ)) := by
      simp only [Matrix.transpose_mul, Matrix.transpose_transpose, Matrix.smul_mul, Matrix.mul_smul, Matrix.mul_assoc]
    rw [e3, hU, Matrix.one_mul, Matrix.mul_one]
  rw [hX]
  generalize U * P * Uᵀ = W at *
  generalize U * Z * Uᵀ = Y at *
  refine ⟨_, Y, W, rfl, hWY, hYs, hWs, rfl, hlyap, ?_⟩
  have h4 : W * ((A + β • (1 : Matrix (Fin n) (Fin n) ℝ)) * Y + Y * (A + β • (1 : Matrix (Fin n) (Fin n) ℝ))ᵀ) * W
      = W * (A + β • (1 : Matrix (Fin n) (Fin n) ℝ)) + (A + β • (1 : Matrix (Fin n) (Fin n) ℝ))ᵀ * W := by
    rw [Matrix.mul_add, Matrix.add_mul]
    congr 1
    · rw [Matrix.mul_assoc, Matrix.mul_assoc _ Y, hYW, Matrix.mul_one]
    · rw [← Matrix.mul_assoc, hWY, Matrix.one_mul]
  rw [hlyap] at h4
  have h5 : W * A + Aᵀ * W = (2 : ℝ) • (W * (B * Bᵀ) * W) - (2 * β) • W := by
    have : W * (A + β • (1 : Matrix (Fin n) (Fin n) ℝ)) + (A + β • (1 : Matrix (Fin n) (Fin n) ℝ))ᵀ * W = W * A + Aᵀ * W + (2 * β) • W := by
      rw [Matrix.transpose_add, Matrix.transpose_smul, Matrix.transpose_one, Matrix.mul_add, Matrix.add_mul, Matrix.mul_smul, Matrix.smul_mul,
        Matrix.mul_one, Matrix.one_mul]
      module
    rw [this, Matrix.mul_smul, Matrix.smul_mul] at h4
    rw [h4]; abel
  have h6 : W * (A - B * (Bᵀ * W)) + (A - B * (Bᵀ * W))ᵀ * W = W * A + Aᵀ * W - (2 : ℝ) • (W * (B * Bᵀ) * W) := by
    rw [Matrix.transpose_sub, Matrix.transpose_mul, Matrix.transpose_mul, Matrix.transpose_transpose, hWs]
    simp only [Matrix.mul_sub, Matrix.sub_mul, Matrix.mul_assoc]
    module
  rw [h6, h5]
  module

/-- C88. What the last equation of `initRaw_decay` says when `W` is positive definite: every eigenvalue `a + i b` of the closed loop (eigenvector
`x + i y`) has real part `-β`. -/
theorem decay_spectrum (β : ℝ) (L W : Matrix (Fin n) (Fin n) ℝ) (hW : W.PosDef) (h : W * L + Lᵀ * W = -(2 * β) • W)
    (a b : ℝ) (x y : Fin n → ℝ) (hxy : x ≠ 0 ∨ y ≠ 0) (hx : L *ᵥ x = a • x - b • y) (hy : L *ᵥ y = b • x + a • y) : a = -β := by
  have hWs : Wᵀ = W := by simpa using hW.isHermitian.eq
  have hq : ∀ z : Fin n → ℝ, z ⬝ᵥ W *ᵥ (L *ᵥ z) = -β * (z ⬝ᵥ W *ᵥ z) := by
    intro z
    have h1 := congrArg (fun Z => z ⬝ᵥ Z *ᵥ z) h
    simp only [Matrix.add_mulVec, dotProduct_add, Matrix.smul_mulVec, dotProduct_smul, smul_eq_mul] at h1
    have h2 : z ⬝ᵥ (Lᵀ * W) *ᵥ z = z ⬝ᵥ (W * L) *ᵥ z := by
      rw [← Matrix.mulVec_mulVec, Matrix.dotProduct_mulVec, Matrix.vecMul_transpose, ← Matrix.mulVec_mulVec, Matrix.dotProduct_mulVec z,
        ← hWs, Matrix.vecMul_transpose, dotProduct_comm, hWs]
    rw [h2] at h1
    rw [Matrix.mulVec_mulVec]
    linarith
  have hxy' : y ⬝ᵥ W *ᵥ x = x ⬝ᵥ W *ᵥ y := by
    rw [Matrix.dotProduct_mulVec, ← hWs, Matrix.vecMul_transpose, hWs, dotProduct_comm]
  have h1 := hq x
  have h2 := hq y
  rw [hx, Matrix.mulVec_sub, Matrix.mulVec_smul, Matrix.mulVec_smul, dotProduct_sub, dotProduct_smul, dotProduct_smul] at h1
  rw [hy, Matrix.mulVec_add, Matrix.mulVec_smul, Matrix.mulVec_smul, dotProduct_add, dotProduct_smul, dotProduct_smul, hxy'] at h2
  simp only [smul_eq_mul] at h1 h2
  have hnn : ∀ z : Fin n → ℝ, 0 ≤ z ⬝ᵥ W *ᵥ z := fun z => by
    have := hW.posSemidef.dotProduct_mulVec_nonneg z
    rwa [star_trivial] at this
  have hp : ∀ z : Fin n → ℝ, z ≠ 0 → 0 < z ⬝ᵥ W *ᵥ z := fun z hz => by
    have := hW.dotProduct_mulVec_pos hz
    rwa [star_trivial] at this
  have hpos : 0 < x ⬝ᵥ W *ᵥ x + y ⬝ᵥ W *ᵥ y := by
    rcases hxy with h | h
    · exact add_pos_of_pos_of_nonneg (hp x h) (hnn y)
    · exact add_pos_of_nonneg_of_pos (hnn x) (hp y h)
  have : (a + β) * (x ⬝ᵥ W *ᵥ x + y ⬝ᵥ W *ᵥ y) = 0 := by linarith
  rcases mul_eq_zero.1 this with h | h
  · linarith
  · exact absurd h hpos.ne'

/-- C88. The shift of polymath.cpp puts all eigenvalues of the shifted matrix at or to the right of 1/2. -/
theorem shift_right (TA : Matrix (Fin (n + 1)) (Fin (n + 1)) ℝ) (i : Fin (n + 1)) : 1 / 2 ≤ e.eigRe TA i + shift e TA := by
  unfold shift
  have h1 : Finset.univ.inf' Finset.univ_nonempty (e.eigRe TA) ≤ e.eigRe TA i := Finset.inf'_le _ (Finset.mem_univ i)
  have h2 := le_max_left (-(Finset.univ.inf' Finset.univ_nonempty (e.eigRe TA))) 0
  linarith

/-- C88. The symmetrised guess: when its Lyapunov equation is solved exactly and `B` is symmetric, it is symmetric and satisfies this identity. -/
theorem initSym_identity (hs : SolveOk e) (A B X : Matrix (Fin n) (Fin n) ℝ) (hg : GoodAt e A B X) (hB : Bᵀ = B)
    (hasym : 1 / 10 ^ 12 < frob (X - Xᵀ)) :
    (initSym e A B X)ᵀ = initSym e A B X ∧
      (A - B * initSym e A B X)ᵀ * initSym e A B X + initSym e A B X * (A - B * initSym e A B X)
        = -((1 / 2 : ℝ) • (1 : Matrix (Fin n) (Fin n) ℝ)) - (X - initSym e A B X)ᵀ * B * (X - initSym e A B X)
          - initSym e A B X * B * initSym e A B X := by
  have hM : (-(Xᵀ * B * X + (1 / 2 : ℝ) • (1 : Matrix (Fin n) (Fin n) ℝ)))ᵀ = -(Xᵀ * B * X + (1 / 2 : ℝ) • (1 : Matrix (Fin n) (Fin n) ℝ)) := by
    simp only [Matrix.transpose_neg, Matrix.transpose_add, Matrix.transpose_mul, Matrix.transpose_smul, Matrix.transpose_one,
      Matrix.transpose_transpose, hB, Matrix.mul_assoc]
  have h1 := lyapunov_solves e hs _ (-(Xᵀ * B * X + (1 / 2 : ℝ) • (1 : Matrix (Fin n) (Fin n) ℝ))) hg.1 hg.2.1 hg.2.2
  have h2 := lyapunov_symm e hs _ _ hg.1 hg.2.1 hg.2.2 hM
  have h0 : initSym e A B X = lyapunov e (A - B * X)ᵀ (-(Xᵀ * B * X + (1 / 2 : ℝ) • (1 : Matrix (Fin n) (Fin n) ℝ))) := by
    unfold initSym; rw [if_pos hasym]
  rw [h0]
  unfold SolvesLyapunov at h1
  rw [Matrix.transpose_transpose] at h1
  generalize lyapunov e (A - B * X)ᵀ (-(Xᵀ * B * X + (1 / 2 : ℝ) • (1 : Matrix (Fin n) (Fin n) ℝ))) = Y at *
  refine ⟨h2, ?_⟩
  have h3 : (A - B * Y)ᵀ * Y + Y * (A - B * Y) = ((A - B * X)ᵀ * Y + Y * (A - B * X)) + ((Xᵀ - Y) * B * Y + Y * B * (X - Y)) := by
    simp only [Matrix.transpose_sub, Matrix.transpose_mul, hB, h2, Matrix.mul_sub, Matrix.sub_mul, Matrix.mul_assoc]
    abel
  rw [h3, h1]
  simp only [Matrix.transpose_sub, h2, Matrix.mul_sub, Matrix.sub_mul, Matrix.mul_assoc]
  module

/-- C88. With `B` positive semidefinite, `V(x) = x' X x` of the symmetrised guess decreases along its closed loop by at least `|x|^2 / 2`. -/
theorem initSym_certificate (hs : SolveOk e) (A B X : Matrix (Fin n) (Fin n) ℝ) (hg : GoodAt e A B X) (hB : B.PosSemidef)
    (hasym : 1 / 10 ^ 12 < frob (X - Xᵀ)) (x : Fin n → ℝ) :
    2 * (x ⬝ᵥ initSym e A B X *ᵥ ((A - B * initSym e A B X) *ᵥ x)) ≤ -(1 / 2) * (x ⬝ᵥ x) := by
  have hBs : Bᵀ = B := by simpa using hB.isHermitian.eq
  obtain ⟨hsym, hid⟩ := initSym_identity e hs A B X hg hBs hasym
  generalize initSym e A B X = Y at *
  have h1 := congrArg (fun Z => x ⬝ᵥ Z *ᵥ x) hid
  simp only [Matrix.add_mulVec, Matrix.sub_mulVec, Matrix.neg_mulVec, dotProduct_add, dotProduct_sub, dotProduct_neg, Matrix.smul_mulVec,
    Matrix.one_mulVec, dotProduct_smul, smul_eq_mul] at h1
  have h2 : x ⬝ᵥ ((A - B * Y)ᵀ * Y) *ᵥ x = x ⬝ᵥ (Y * (A - B * Y)) *ᵥ x := by
    rw [← Matrix.mulVec_mulVec, Matrix.dotProduct_mulVec, Matrix.vecMul_transpose, ← Matrix.mulVec_mulVec, Matrix.dotProduct_mulVec x,
      ← hsym, Matrix.vecMul_transpose, dotProduct_comm, hsym]
  have hq : ∀ Z : Matrix (Fin n) (Fin n) ℝ, 0 ≤ x ⬝ᵥ (Zᵀ * B * Z) *ᵥ x := by
    intro Z
    have := hB.dotProduct_mulVec_nonneg (Z *ᵥ x)
    rw [star_trivial] at this
    rw [← Matrix.mulVec_mulVec, ← Matrix.mulVec_mulVec, Matrix.dotProduct_mulVec, Matrix.vecMul_transpose]
    exact this
  have h3 := hq (X - Y)
  have h4 := hq Y
  rw [hsym] at h4
  rw [h2] at h1
  rw [Matrix.mulVec_mulVec]
  linarith

end Init

/-! ### CARE -/

section Care
variable {n : ℕ}

/-- C51. The header's `care` does not read its third argument. -/
theorem care_ignores (A B C C' : Matrix (Fin n) (Fin n) ℝ) : careHeader e A B C = careHeader e A B C' := rfl

/-- C51. So for given `A` and `B` it solves the equation for at most one `C`. -/
theorem care_at_most_one (A B C C' X X' : Matrix (Fin n) (Fin n) ℝ) (h : careHeader e A B C = some X) (h' : careHeader e A B C' = some X')
    (hs : SolvesCare A B C X) (hs' : SolvesCare A B C' X') : C = C' := by
  rw [care_ignores e A B C C'] at h
  rw [h] at h'
  obtain rfl := Option.some.inj h'
  unfold SolvesCare at hs hs'
  have := hs.trans hs'.symm
  exact add_left_cancel this

end Care

/-! ### Gain -/

section Gain
variable {n m : ℕ}

theorem quad_zero (D : Matrix (Fin n) (Fin n) ℝ) (hD : Dᵀ = D) (h : ∀ x : Fin n → ℝ, x ⬝ᵥ D *ᵥ x = 0) : D = 0 := by
  have hb : ∀ x y : Fin n → ℝ, x ⬝ᵥ D *ᵥ y = 0 := by
    intro x y
    have h1 := h (x + y)
    have h2 : y ⬝ᵥ D *ᵥ x = x ⬝ᵥ D *ᵥ y := by
      rw [Matrix.dotProduct_mulVec, ← hD, Matrix.vecMul_transpose, hD, dotProduct_comm]
    rw [Matrix.mulVec_add, dotProduct_add, add_dotProduct, add_dotProduct, h x, h y, h2] at h1
    linarith
  ext i j
  have := hb (Pi.single i 1) (Pi.single j 1)
  simpa using this

theorem bil_zero (D : Matrix (Fin n) (Fin m) ℝ) (h : ∀ (x : Fin n → ℝ) (u : Fin m → ℝ), x ⬝ᵥ D *ᵥ u = 0) : D = 0 := by
  ext i j
  have := h (Pi.single i 1) (Pi.single j 1)
  simpa using this

/-- What the completion of the square means for symmetric weights. -/
theorem completesSquare_iff (κ : ℝ) (F : Matrix (Fin n) (Fin n) ℝ) (G : Matrix (Fin n) (Fin m) ℝ) (Q : Matrix (Fin n) (Fin n) ℝ)
    (R : Matrix (Fin m) (Fin m) ℝ) (M : Matrix (Fin n) (Fin m) ℝ) (S : Matrix (Fin n) (Fin n) ℝ) (K : Matrix (Fin m) (Fin n) ℝ)
    (hQ : Qᵀ = Q) (hR : Rᵀ = R) (hS : Sᵀ = S) :
    CompletesSquare κ F G Q R M S K ↔ Q + Fᵀ * S + S * F = Kᵀ * R * K ∧ κ • M + (2 : ℝ) • (S * G) = (2 : ℝ) • (Kᵀ * R) := by
  have key : ∀ (x : Fin n → ℝ) (u : Fin m → ℝ),
      x ⬝ᵥ Q *ᵥ x + κ * (x ⬝ᵥ M *ᵥ u) + u ⬝ᵥ R *ᵥ u + ((F *ᵥ x + G *ᵥ u) ⬝ᵥ S *ᵥ x + x ⬝ᵥ S *ᵥ (F *ᵥ x + G *ᵥ u))
        - (u + K *ᵥ x) ⬝ᵥ R *ᵥ (u + K *ᵥ x)
      = x ⬝ᵥ (Q + Fᵀ * S + S * F - Kᵀ * R * K) *ᵥ x + x ⬝ᵥ (κ • M + (2 : ℝ) • (S * G) - (2 : ℝ) • (Kᵀ * R)) *ᵥ u := by
    intro x u
    have a1 : (F *ᵥ x) ⬝ᵥ S *ᵥ x = x ⬝ᵥ (Fᵀ * S) *ᵥ x := by
      rw [← Matrix.mulVec_mulVec, Matrix.dotProduct_mulVec x, Matrix.vecMul_transpose]
    have a2 : (G *ᵥ u) ⬝ᵥ S *ᵥ x = x ⬝ᵥ (S * G) *ᵥ u := by
      rw [← Matrix.mulVec_mulVec, Matrix.dotProduct_mulVec x, ← hS, Matrix.vecMul_transpose, hS, dotProduct_comm]
    have a3 : u ⬝ᵥ R *ᵥ (K *ᵥ x) = x ⬝ᵥ (Kᵀ * R) *ᵥ u := by
      rw [← Matrix.mulVec_mulVec, Matrix.dotProduct_mulVec x, Matrix.vecMul_transpose, Matrix.dotProduct_mulVec u, ← hR, Matrix.vecMul_transpose, hR,
        dotProduct_comm]
    have a4 : (K *ᵥ x) ⬝ᵥ R *ᵥ u = x ⬝ᵥ (Kᵀ * R) *ᵥ u := by
      rw [← Matrix.mulVec_mulVec, Matrix.dotProduct_mulVec x, Matrix.vecMul_transpose]
    have a5 : (K *ᵥ x) ⬝ᵥ R *ᵥ (K *ᵥ x) = x ⬝ᵥ (Kᵀ * R * K) *ᵥ x := by
      rw [← Matrix.mulVec_mulVec, ← Matrix.mulVec_mulVec, Matrix.dotProduct_mulVec x, Matrix.vecMul_transpose]
    simp only [Matrix.add_mulVec, Matrix.sub_mulVec, Matrix.smul_mulVec, dotProduct_add, dotProduct_sub, dotProduct_smul, smul_eq_mul,
      Matrix.mulVec_add, add_dotProduct, a1, a2, a3, a4, a5]
    simp only [Matrix.mulVec_mulVec]
    ring
  have hD : (Q + Fᵀ * S + S * F - Kᵀ * R * K)ᵀ = Q + Fᵀ * S + S * F - Kᵀ * R * K := by
    simp only [Matrix.transpose_add, Matrix.transpose_sub, Matrix.transpose_mul, Matrix.transpose_transpose, hQ, hR, hS, Matrix.mul_assoc]
    abel
  unfold CompletesSquare
  constructor
  · intro h
    have hz : ∀ x u, x ⬝ᵥ (Q + Fᵀ * S + S * F - Kᵀ * R * K) *ᵥ x + x ⬝ᵥ (κ • M + (2 : ℝ) • (S * G) - (2 : ℝ) • (Kᵀ * R)) *ᵥ u = 0 :=
      fun x u => by rw [← key x u, h x u, sub_self]
    have hq : ∀ x : Fin n → ℝ, x ⬝ᵥ (Q + Fᵀ * S + S * F - Kᵀ * R * K) *ᵥ x = 0 := by
      intro x
      have := hz x 0
      rwa [Matrix.mulVec_zero, dotProduct_zero, add_zero] at this
    refine ⟨sub_eq_zero.1 (quad_zero _ hD hq), sub_eq_zero.1 (bil_zero _ fun x u => ?_)⟩
    have := hz x u
    rwa [hq x, zero_add] at this
  · rintro ⟨h1, h2⟩ x u
    have := key x u
    rw [h1, h2, sub_self, sub_self, Matrix.zero_mulVec, Matrix.zero_mulVec, dotProduct_zero, add_zero] at this
    exact sub_eq_zero.1 this

/-- C87. Without cross term: if the Riccati solver returns a symmetric solution of the equation `lqr` hands it, then the gain completes the
square. -/
theorem gain_optimal (F : Matrix (Fin n) (Fin n) ℝ) (G : Matrix (Fin n) (Fin m) ℝ) (Q : Matrix (Fin n) (Fin n) ℝ) (R P : Matrix (Fin m) (Fin m) ℝ)
    (S : Matrix (Fin n) (Fin n) ℝ) (hQ : Qᵀ = Q) (hR : Rᵀ = R) (hS : Sᵀ = S) (hP : P * R = 1)
    (hsol : SolvesCare (riccatiData F G Q P 0).1 (riccatiData F G Q P 0).2.1 (riccatiData F G Q P 0).2.2 S) (κ : ℝ) :
    CompletesSquare κ F G Q R 0 S (gain G P 0 S) := by
  have hRP : R * P = 1 := mul_eq_one_comm.1 hP
  have hPs : Pᵀ = P := by
    have : Pᵀ * R = 1 := by
      have := congrArg Matrix.transpose hRP
      rwa [Matrix.transpose_mul, hR, Matrix.transpose_one] at this
    calc Pᵀ = Pᵀ * (R * P) := by rw [hRP, Matrix.mul_one]
      _ = P := by rw [← Matrix.mul_assoc, this, Matrix.one_mul]
  rw [completesSquare_iff κ F G Q R 0 S _ hQ hR hS]
  have hK : gain G P 0 S = P * (Gᵀ * S) := by unfold gain; rw [Matrix.transpose_zero, add_zero]
  have hKR : (gain G P 0 S)ᵀ * R = S * G := by
    rw [hK]
    simp only [Matrix.transpose_mul, Matrix.transpose_transpose, hS, hPs]
    rw [Matrix.mul_assoc, hP, Matrix.mul_one]
  rw [hKR]
  refine ⟨?_, by rw [smul_zero, zero_add]⟩
  unfold riccatiData SolvesCare at hsol
  simp only [Matrix.zero_mul, Matrix.mul_zero, sub_zero, Matrix.transpose_zero, zero_add] at hsol
  rw [hK]
  have h2 : S * G * (P * (Gᵀ * S)) = S * (G * P * Gᵀ) * S := by simp only [Matrix.mul_assoc]
  rw [h2, ← sub_eq_zero, ← hsol]
  abel

theorem gain_weight (G : Matrix (Fin n) (Fin m) ℝ) (R P : Matrix (Fin m) (Fin m) ℝ) (M : Matrix (Fin n) (Fin m) ℝ)
    (S : Matrix (Fin n) (Fin n) ℝ) (hR : Rᵀ = R) (hS : Sᵀ = S) (hP : P * R = 1) : Pᵀ = P ∧ (gain G P M S)ᵀ * R = S * G + M := by
  have hRP : R * P = 1 := mul_eq_one_comm.1 hP
  have hPs : Pᵀ = P := by
    have : Pᵀ * R = 1 := by
      have := congrArg Matrix.transpose hRP
      rwa [Matrix.transpose_mul, hR, Matrix.transpose_one] at this
    calc Pᵀ = Pᵀ * (R * P) := by rw [hRP, Matrix.mul_one]
      _ = P := by rw [← Matrix.mul_assoc, this, Matrix.one_mul]
  refine ⟨hPs, ?_⟩
  unfold gain
  simp only [Matrix.transpose_mul, Matrix.transpose_add, Matrix.transpose_transpose, hS, hPs]
  rw [Matrix.mul_assoc, hP, Matrix.mul_one]

/-- C87. For the documented cost `x'Qx + x'Mu + u'Ru` with a cross term, the gain completes the square for no `S` whatsoever. -/
theorem gain_documented_cost (F : Matrix (Fin n) (Fin n) ℝ) (G : Matrix (Fin n) (Fin m) ℝ) (Q : Matrix (Fin n) (Fin n) ℝ)
    (R P : Matrix (Fin m) (Fin m) ℝ) (M : Matrix (Fin n) (Fin m) ℝ) (S : Matrix (Fin n) (Fin n) ℝ) (hQ : Qᵀ = Q) (hR : Rᵀ = R) (hS : Sᵀ = S)
    (hP : P * R = 1) (hM : M ≠ 0) : ¬ CompletesSquare 1 F G Q R M S (gain G P M S) := by
  rw [completesSquare_iff 1 F G Q R M S _ hQ hR hS, (gain_weight G R P M S hR hS hP).2]
  rintro ⟨-, h⟩
  apply hM
  have : M = (1 : ℝ) • M + (2 : ℝ) • (S * G) - (2 : ℝ) • (S * G) := by module
  have h2 : M = (2 : ℝ) • M := by
    conv_lhs => rw [this, h]
    module
  have h3 : (2 : ℝ) • M - M = 0 := by rw [← h2]; exact sub_self M
  have h4 : M = (2 : ℝ) • M - M := by module
  rw [h4, h3]

/-- C87. For the cost `x'Qx + 2x'Mu + u'Ru`, for which the formula of the gain is right, a solution of the equation `lqr` hands to the Riccati solver
completes the square exactly when the two wrong terms of the equation cancel. -/
theorem gain_cross_iff (F : Matrix (Fin n) (Fin n) ℝ) (G : Matrix (Fin n) (Fin m) ℝ) (Q : Matrix (Fin n) (Fin n) ℝ)
    (R P : Matrix (Fin m) (Fin m) ℝ) (M : Matrix (Fin n) (Fin m) ℝ) (S : Matrix (Fin n) (Fin n) ℝ) (hQ : Qᵀ = Q) (hR : Rᵀ = R) (hS : Sᵀ = S)
    (hP : P * R = 1) (hsol : SolvesCare (riccatiData F G Q P M).1 (riccatiData F G Q P M).2.1 (riccatiData F G Q P M).2.2 S) :
    CompletesSquare 2 F G Q R M S (gain G P M S) ↔
      S * (M * P * Gᵀ - G * P * Mᵀ) + (M * P * Gᵀ - G * P * Mᵀ)ᵀ * S = (2 : ℝ) • (M * P * Mᵀ) := by
  obtain ⟨hPs, hK⟩ := gain_weight G R P M S hR hS hP
  rw [completesSquare_iff 2 F G Q R M S _ hQ hR hS, hK]
  unfold riccatiData SolvesCare at hsol
  simp only at hsol
  have e1 : (S * G + M) * gain G P M S = S * (G * P * Gᵀ) * S + S * (G * P * Mᵀ) + M * P * Gᵀ * S + M * P * Mᵀ := by
    unfold gain
    simp only [Matrix.mul_add, Matrix.add_mul, Matrix.mul_assoc]
    abel
  have e2 : (M * P * Gᵀ)ᵀ = G * P * Mᵀ := by
    simp only [Matrix.transpose_mul, Matrix.transpose_transpose, hPs, Matrix.mul_assoc]
  have e3 : (G * P * Mᵀ)ᵀ = M * P * Gᵀ := by
    simp only [Matrix.transpose_mul, Matrix.transpose_transpose, hPs, Matrix.mul_assoc]
  rw [e1, Matrix.transpose_sub, e2, e3]
  rw [Matrix.transpose_sub, e2] at hsol
  simp only [Matrix.mul_sub, Matrix.sub_mul] at hsol ⊢
  generalize M * P * Gᵀ = a at *
  generalize G * P * Mᵀ = b at *
  generalize S * (G * P * Gᵀ) * S = c at *
  generalize M * P * Mᵀ = d at *
  have hsol' : Fᵀ * S = b * S - (S * F - S * a) + c - (d + Q) := by
    rw [← sub_eq_zero, ← hsol]; abel
  constructor
  · rintro ⟨h, -⟩
    rw [hsol'] at h
    rw [← sub_eq_zero] at h ⊢
    rw [← h]
    module
  · intro h
    refine ⟨?_, by module⟩
    rw [hsol']
    rw [← sub_eq_zero] at h ⊢
    rw [← h]
    module

/-- C87. With one state and one input this never happens: any nonzero cross term gives a wrong pair `S`, `K` under either convention. -/
theorem gain_cross_scalar (F G Q R P M S : Matrix (Fin 1) (Fin 1) ℝ) (hP : P * R = 1) (hM : M ≠ 0)
    (hsol : SolvesCare (riccatiData F G Q P M).1 (riccatiData F G Q P M).2.1 (riccatiData F G Q P M).2.2 S) :
    ¬ CompletesSquare 2 F G Q R M S (gain G P M S) := by
  have ht : ∀ X : Matrix (Fin 1) (Fin 1) ℝ, Xᵀ = X := fun X => by
    ext i j; rw [Matrix.transpose_apply, Subsingleton.elim i j]
  rw [gain_cross_iff F G Q R P M S (ht Q) (ht R) (ht S) hP hsol]
  intro h
  have h0 := congrFun (congrFun h 0) 0
  have hp := congrFun (congrFun hP 0) 0
  simp only [ht, Matrix.add_apply, Matrix.mul_apply, Matrix.sub_apply, Matrix.smul_apply, Finset.univ_unique, Fin.default_eq_zero,
    Finset.sum_singleton, smul_eq_mul, Matrix.one_apply_eq] at h0 hp
  have hM0 : M 0 0 ≠ 0 := by
    intro hz
    apply hM
    ext i j
    rw [Subsingleton.elim i 0, Subsingleton.elim j 0, hz]; rfl
  have hP0 : P 0 0 ≠ 0 := by
    intro hz; rw [hz, zero_mul] at hp; exact zero_ne_one hp
  have : M 0 0 * P 0 0 * M 0 0 = 0 := by nlinarith
  rcases mul_eq_zero.1 this with h | h
  · rcases mul_eq_zero.1 h with h | h
    · exact hM0 h
    · exact hP0 h
  · exact hM0 h

/-- C51. Without a cross term and without the check, the header's `lqr` returns the same `S` and the same gain whatever `Q` is. -/
theorem lqr_ignores_Q (F : Matrix (Fin n) (Fin n) ℝ) (G : Matrix (Fin n) (Fin m) ℝ) (Q Q' : Matrix (Fin n) (Fin n) ℝ) (R : Matrix (Fin m) (Fin m) ℝ)
    (M : Matrix (Fin n) (Fin m) ℝ) : lqrHeader e F G Q R M false = lqrHeader e F G Q' R M false := by
  unfold lqrHeader
  simp only [Bool.false_eq_true, false_and, if_false]
  rfl

/-- C51. So it is optimal for at most one symmetric state weight. -/
theorem lqr_one_weight (κ : ℝ) (F : Matrix (Fin n) (Fin n) ℝ) (G : Matrix (Fin n) (Fin m) ℝ) (Q Q' : Matrix (Fin n) (Fin n) ℝ)
    (R : Matrix (Fin m) (Fin m) ℝ) (M : Matrix (Fin n) (Fin m) ℝ) (S S' : Matrix (Fin n) (Fin n) ℝ) (K K' : Matrix (Fin m) (Fin n) ℝ)
    (hQ : Qᵀ = Q) (hQ' : Q'ᵀ = Q') (h : lqrHeader e F G Q R M false = some (S, K)) (h' : lqrHeader e F G Q' R M false = some (S', K'))
    (hc : CompletesSquare κ F G Q R M S K) (hc' : CompletesSquare κ F G Q' R M S' K') : Q = Q' := by
  rw [lqr_ignores_Q e F G Q Q'] at h
  rw [h] at h'
  obtain ⟨rfl, rfl⟩ := Prod.mk.inj (Option.some.inj h')
  rw [← sub_eq_zero]
  refine quad_zero _ (by rw [Matrix.transpose_sub, hQ, hQ']) fun x => ?_
  have h1 := hc x 0
  have h2 := hc' x 0
  rw [Matrix.sub_mulVec, dotProduct_sub]
  linarith

/-- C87. What `oc::lqr` returns for weights with an invertible `R` and no cross term is the optimal gain, provided its Riccati solver returned a
symmetric solution. -/
theorem lqrPolymath_optimal (F : Matrix (Fin (n + 1)) (Fin (n + 1)) ℝ) (G : Matrix (Fin (n + 1)) (Fin m) ℝ) (Q : Matrix (Fin (n + 1)) (Fin (n + 1)) ℝ)
    (R : Matrix (Fin m) (Fin m) ℝ) (check : Bool) (K : Matrix (Fin m) (Fin (n + 1)) ℝ) (hQ : Qᵀ = Q) (hR : Rᵀ = R) (hsvd : SvdOk e R)
    (hsv : ∀ k, 1 / 10 ^ 6 < (e.svd R).2.1 k) (h : lqrPolymath e F G Q R 0 check = some (.gain K)) :
    ∃ P S, R * P = 1 ∧ carePolymath e F (G * P * Gᵀ) Q = some S ∧
      (Sᵀ = S → SolvesCare F (G * P * Gᵀ) Q S → ∀ κ, CompletesSquare κ F G Q R 0 S K) := by
  obtain ⟨P, hP, hPR, hRP⟩ := pinv_inverse e R hsvd hsv
  unfold lqrPolymath at h
  rw [hP] at h
  simp only at h
  by_cases hc : check = true ∧ weightsOk e Q R (0 : Matrix (Fin (n + 1)) (Fin m) ℝ) ≠ some true
  · rw [if_pos hc] at h; simp at h
  · rw [if_neg hc] at h
    have hD : riccatiData F G Q P (0 : Matrix (Fin (n + 1)) (Fin m) ℝ) = (F, G * P * Gᵀ, Q) := by
      unfold riccatiData
      simp only [Matrix.zero_mul, Matrix.mul_zero, sub_zero, Matrix.transpose_zero, zero_add]
    rw [hD] at h
    rcases hS : carePolymath e F (G * P * Gᵀ) Q with _ | S
    · rw [hS] at h; simp at h
    · rw [hS] at h
      simp only [Option.some.injEq, Gain.gain.injEq] at h
      refine ⟨P, S, hRP, hS, fun hSs hsol κ => ?_⟩
      rw [← h]
      refine gain_optimal F G Q R P S hQ hR hSs hPR ?_ κ
      rw [hD]; exact hsol

/-- C87. The check refuses weights for which an eigenvalue of `Q - M pinv(R) M'` is negative, and only those. -/
theorem lqrPolymath_check (F : Matrix (Fin (n + 1)) (Fin (n + 1)) ℝ) (G : Matrix (Fin (n + 1)) (Fin m) ℝ) (Q : Matrix (Fin (n + 1)) (Fin (n + 1)) ℝ)
    (R P : Matrix (Fin m) (Fin m) ℝ) (M : Matrix (Fin (n + 1)) (Fin m) ℝ) (check : Bool) (hP : pinv e R = some P) :
    lqrPolymath e F G Q R M check = some .rejected ↔ check = true ∧ ∃ i, e.eigRe (Q - M * P * Mᵀ) i < 0 := by
  unfold lqrPolymath weightsOk
  rw [hP]
  simp only
  by_cases hc : check = true ∧ ∃ i, e.eigRe (Q - M * P * Mᵀ) i < 0
  · have hn : ¬ ∀ i, 0 ≤ e.eigRe (Q - M * P * Mᵀ) i := by push Not; exact hc.2
    rw [if_pos ⟨hc.1, by simp [hn]⟩]
    exact ⟨fun _ => hc, fun _ => rfl⟩
  · rw [if_neg]
    · refine ⟨fun h => ?_, fun h => absurd h hc⟩
      exfalso
      revert h
      split <;> simp
    · rintro ⟨h1, h2⟩
      apply hc
      refine ⟨h1, ?_⟩
      by_contra hall
      push Not at hall
      exact h2 (by simp [hall])

end Gain

/-! ### Controllability -/

section Ctrb
variable {n m : ℕ}

theorem vecMul_ctrb (F : Matrix (Fin n) (Fin n) ℝ) (G : Matrix (Fin n) (Fin m) ℝ) (w : Fin n → ℝ) :
    w ᵥ* ctrb F G = 0 ↔ ∀ k < n, w ᵥ* (F ^ k * G) = 0 := by
  constructor
  · intro h k hk
    ext j
    have hlt : k * m + j.val < n * m := by
      have := j.isLt
      calc k * m + j.val < k * m + m := by omega
        _ = (k + 1) * m := by ring
        _ ≤ n * m := Nat.mul_le_mul_right m hk
    have hm : 0 < m := lt_of_le_of_lt (Nat.zero_le _) j.isLt
    have := congrFun h ⟨k * m + j.val, hlt⟩
    simp only [Matrix.vecMul, dotProduct, ctrb, Pi.zero_apply] at this ⊢
    have hd : (k * m + j.val) / m = k := by
      rw [mul_comm, Nat.mul_add_div hm, Nat.div_eq_of_lt j.isLt, add_zero]
    have hmod : (k * m + j.val) % m = j.val := by
      rw [mul_comm, Nat.mul_add_mod, Nat.mod_eq_of_lt j.isLt]
    rw [← this]
    refine Finset.sum_congr rfl fun i _ => ?_
    have hj : (⟨(k * m + j.val) % m, Nat.mod_lt _ hm⟩ : Fin m) = j := Fin.ext hmod
    simp only [hd, hj]
  · intro h
    ext q
    have hm : 0 < m := Nat.pos_of_ne_zero (fun h => by subst h; exact absurd q.isLt (by simp))
    have hk : q.val / m < n := by rw [Nat.div_lt_iff_lt_mul hm]; exact q.isLt
    have := congrFun (h _ hk) ⟨q.val % m, Nat.mod_lt _ hm⟩
    simpa only [Matrix.vecMul, dotProduct, ctrb, Pi.zero_apply] using this

/-- C89. `is_controllable`, with an exact rank: true exactly when no nonzero covector is annihilated by every `F^k G`, over all powers. -/
theorem controllable_iff (rank : {r c : ℕ} → Matrix (Fin r) (Fin c) ℝ → ℕ) (hrank : ∀ {r c : ℕ} (A : Matrix (Fin r) (Fin c) ℝ), rank A = A.rank)
    (F : Matrix (Fin n) (Fin n) ℝ) (G : Matrix (Fin n) (Fin m) ℝ) :
    isControllable rank F G = true ↔ ∀ w : Fin n → ℝ, (∀ k : ℕ, w ᵥ* (F ^ k * G) = 0) → w = 0 := by
  unfold isControllable
  rw [beq_iff_eq]
  change rank (ctrb F G) = n ↔ _
  rw [hrank]
  have hall : ∀ w : Fin n → ℝ, (∀ k < n, w ᵥ* (F ^ k * G) = 0) → ∀ k : ℕ, w ᵥ* (F ^ k * G) = 0 := by
    intro w hw k
    by_cases hn : n = 0
    · subst hn
      ext j
      simp [Matrix.vecMul, dotProduct]
    rw [Matrix.pow_eq_aeval_mod_charpoly, Polynomial.aeval_eq_sum_range' (n := n)]
    · rw [Matrix.sum_mul, Matrix.vecMul_sum]
      refine Finset.sum_eq_zero fun i hi => ?_
      rw [Matrix.smul_mul, Matrix.vecMul_smul, hw i (Finset.mem_range.1 hi), smul_zero]
    · have hc : F.charpoly.natDegree = n := by rw [Matrix.charpoly_natDegree_eq_dim, Fintype.card_fin]
      refine (Polynomial.natDegree_modByMonic_lt _ F.charpoly_monic fun h1 => ?_).trans_eq hc
      rw [h1, Polynomial.natDegree_one] at hc
      exact hn hc.symm
  have hrows : (ctrb F G).rank = n ↔ ∀ w : Fin n → ℝ, w ᵥ* ctrb F G = 0 → w = 0 := by
    rw [Matrix.rank_eq_finrank_span_row]
    have h1 := linearIndependent_iff_card_eq_finrank_span (R := ℝ) (b := (ctrb F G).row)
    rw [Fintype.card_fin] at h1
    have h2 : LinearIndependent ℝ (ctrb F G).row ↔ ∀ w : Fin n → ℝ, w ᵥ* ctrb F G = 0 → w = 0 := by
      rw [← Matrix.vecMul_injective_iff]
      constructor
      · intro h w hw
        exact h (by simpa using hw)
      · intro h v w hvw
        rw [← sub_eq_zero]
        refine h _ ?_
        rw [Matrix.sub_vecMul]
        exact sub_eq_zero.2 hvw
    rw [← h2, h1]
    exact eq_comm
  rw [hrows]
  refine forall_congr' fun w => ?_
  rw [vecMul_ctrb]
  exact ⟨fun h hk => h fun k _ => hk k, fun h hk => h (hall w hk)⟩

end Ctrb

/-! ### The hypotheses can be met -/

section Demo

/-- Decompositions that are exact for diagonal matrices with nonnegative (SVD) entries; solver and root finder are exact. -/
noncomputable def demo : Ext where
  schur A := (A, 1)
  solve M b := M⁻¹ *ᵥ b
  svd {r c} A := (1, fun k => A ⟨k, by omega⟩ ⟨k, by omega⟩, 1)
  roots q := (Polynomial.C (q 0) + Polynomial.C (q 1) * Polynomial.X + Polynomial.C (q 2) * Polynomial.X ^ 2
    + Polynomial.C (q 3) * Polynomial.X ^ 3).roots.toList
  eigRe A := fun i => A i i

theorem demo_solve : SolveOk demo := by
  intro n M b h
  change M *ᵥ (M⁻¹ *ᵥ b) = b
  rw [Matrix.mulVec_mulVec, Matrix.mul_nonsing_inv M (isUnit_iff_ne_zero.2 h), Matrix.one_mulVec]

theorem demo_roots : RootsOk demo := by
  intro q hq t ht
  change t ∈ Multiset.toList _
  rw [Multiset.mem_toList, Polynomial.mem_roots]
  · simp only [Polynomial.IsRoot, Polynomial.eval_add, Polynomial.eval_mul, Polynomial.eval_C, Polynomial.eval_X, Polynomial.eval_pow]
    exact ht
  · intro h
    apply hq
    have := congrArg (fun p => Polynomial.coeff p 3) h
    simpa [Polynomial.coeff_X, Polynomial.coeff_C, Polynomial.coeff_X_pow] using this

theorem demo_schur {n : ℕ} (A : Matrix (Fin n) (Fin n) ℝ) : SchurOk demo A := by
  constructor
  · change (1 : Matrix (Fin n) (Fin n) ℝ) * 1ᵀ = 1
    rw [Matrix.transpose_one, Matrix.one_mul]
  · change A = 1 * A * 1ᵀ
    rw [Matrix.transpose_one, Matrix.one_mul, Matrix.mul_one]

theorem demo_real_one (A : Matrix (Fin 1) (Fin 1) ℝ) : RealSpectrum demo A := fun i j h => absurd h (by rw [Subsingleton.elim i j]; simp)

theorem demo_regular_one (A : Matrix (Fin 1) (Fin 1) ℝ) (h : A 0 0 ≠ 0) : Regular demo A := by
  rw [regular_iff demo A (demo_real_one A)]
  intro i j
  rw [Subsingleton.elim i 0, Subsingleton.elim j 0]
  change A 0 0 + A 0 0 ≠ 0
  intro h'
  exact h (by linarith)

theorem one_eq_iff (X Y : Matrix (Fin 1) (Fin 1) ℝ) : X = Y ↔ X 0 0 = Y 0 0 :=
  ⟨fun h => by rw [h], fun h => by ext i j; rw [Subsingleton.elim i 0, Subsingleton.elim j 0, h]⟩

/-- The scalar equation `1 - x^2 = 0` from the guess 2: the only iterates are 2 and 1. -/
theorem demo_reach (Y : Matrix (Fin 1) (Fin 1) ℝ) (h : Reach demo 0 1 1 (fun _ _ => 2) Y) : Y 0 0 = 2 ∨ Y 0 0 = 1 := by
  have ht : ∀ X : Matrix (Fin 1) (Fin 1) ℝ, Xᵀ = X := fun X => by
    ext i j; rw [Matrix.transpose_apply, Subsingleton.elim i j]
  have good : ∀ X : Matrix (Fin 1) (Fin 1) ℝ, X 0 0 ≠ 0 → GoodAt demo 0 1 X := by
    intro X hX
    refine ⟨demo_schur _, demo_regular_one _ ?_, demo_real_one _⟩
    simpa using hX
  have hres : ∀ X : Matrix (Fin 1) (Fin 1) ℝ, residual 0 1 1 X 0 0 = 1 - X 0 0 * X 0 0 := by
    intro X
    simp [residual, Matrix.mul_apply]; ring
  have hsq : ∀ X : Matrix (Fin 1) (Fin 1) ℝ, sqNorm X = X 0 0 ^ 2 := by intro X; simp [sqNorm]
  induction h with
  | start => exact Or.inl rfl
  | @step X X' err _ hst ih =>
    rcases ih with ih | ih
    · obtain ⟨-, -, H, hH, ⟨t, htI, hX'⟩, hbest⟩ := newtonStep_best demo demo_solve demo_roots 0 1 1 X (good X (by rw [ih]; norm_num))
        (ht _) (ht _) (ht _) X' err hst
      have hH0 := congrFun (congrFun hH 0) 0
      rw [ht] at hH0
      simp only [zero_sub, Matrix.one_mul, Matrix.neg_apply, Matrix.add_apply, Matrix.mul_apply, Finset.univ_unique, Fin.default_eq_zero,
        Finset.sum_singleton, hres, ih] at hH0
      have hH1 : H 0 0 = -3 / 4 := by linarith
      have hb := hbest (4 / 3) ⟨by norm_num, by norm_num⟩
      rw [hsq, hsq, hres, hres] at hb
      simp only [Matrix.add_apply, Matrix.smul_apply, smul_eq_mul, ih, hH1] at hb
      have hX0 : X' 0 0 = 2 + t * (-3 / 4) := by rw [hX', Matrix.add_apply, Matrix.smul_apply, smul_eq_mul, ih, hH1]
      have h1 : (1 - X' 0 0 * X' 0 0) ^ 2 = 0 := le_antisymm (hb.trans (by norm_num)) (sq_nonneg _)
      have h2 : 1 - X' 0 0 * X' 0 0 = 0 := by simpa using h1
      have h3 : (X' 0 0 - 1) * (X' 0 0 + 1) = 0 := by linarith
      rcases mul_eq_zero.1 h3 with h | h
      · right; linarith
      · have := htI.2; linarith
    · have hn := newtonStep_at_solution demo demo_solve 0 1 1 X (good X (by rw [ih]; norm_num)) ((residual_zero_iff 0 1 1 X).1 (by
        rw [one_eq_iff, hres, ih]; simp))
      rw [hn] at hst
      simp at hst

/-- `newton_result` applies to this run for every iteration limit, and with the limit one it returns the solution. -/
example : (∀ Y, Reach demo 0 1 1 (fun _ _ => 2) Y →
      GoodAt demo (0 : Matrix (Fin 1) (Fin 1) ℝ) 1 Y ∧ leading demo 0 1 1 Y ≤ 10 ^ 10 * sqNorm (residual 0 1 1 Y)) ∧
    ∃ X : Matrix (Fin 1) (Fin 1) ℝ, newton demo 1 0 1 1 (fun _ _ => 2) = some X ∧ X 0 0 = 1 := by
  have ht : ∀ X : Matrix (Fin 1) (Fin 1) ℝ, Xᵀ = X := fun X => by
    ext i j; rw [Matrix.transpose_apply, Subsingleton.elim i j]
  have good : ∀ X : Matrix (Fin 1) (Fin 1) ℝ, X 0 0 ≠ 0 → GoodAt demo 0 1 X := by
    intro X hX
    refine ⟨demo_schur _, demo_regular_one _ ?_, demo_real_one _⟩
    simpa using hX
  have hres : ∀ X : Matrix (Fin 1) (Fin 1) ℝ, residual 0 1 1 X 0 0 = 1 - X 0 0 * X 0 0 := by
    intro X
    simp [residual, Matrix.mul_apply]; ring
  have hsq : ∀ X : Matrix (Fin 1) (Fin 1) ℝ, sqNorm X = X 0 0 ^ 2 := by intro X; simp [sqNorm]
  have hdir : ∀ X : Matrix (Fin 1) (Fin 1) ℝ, X 0 0 ≠ 0 → 2 * X 0 0 * direction demo 0 1 1 X 0 0 = 1 - X 0 0 * X 0 0 := by
    intro X hX
    have hH0 := congrFun (congrFun (direction_solves demo demo_solve 0 1 1 X (good X hX)) 0) 0
    rw [ht] at hH0
    simp only [zero_sub, Matrix.one_mul, Matrix.neg_apply, Matrix.add_apply, Matrix.mul_apply, Finset.univ_unique, Fin.default_eq_zero,
      Finset.sum_singleton, hres] at hH0
    linarith
  have hlead : ∀ X : Matrix (Fin 1) (Fin 1) ℝ, leading demo 0 1 1 X = (direction demo 0 1 1 X 0 0 ^ 2) ^ 2 := by
    intro X
    rw [leading, hsq]; simp [Matrix.mul_apply]; ring
  refine ⟨fun Y hY => ?_, ?_⟩
  · rcases demo_reach Y hY with h | h
    · have hd := hdir Y (by rw [h]; norm_num)
      refine ⟨good Y (by rw [h]; norm_num), ?_⟩
      rw [hlead, hsq, hres, h]
      rw [h] at hd
      rw [show direction demo 0 1 1 Y 0 0 = -3 / 4 by linarith]; norm_num
    · have hd := hdir Y (by rw [h]; norm_num)
      refine ⟨good Y (by rw [h]; norm_num), ?_⟩
      rw [hlead, hsq, hres, h]
      rw [h] at hd
      rw [show direction demo 0 1 1 Y 0 0 = 0 by linarith]; norm_num
  · set X0 : Matrix (Fin 1) (Fin 1) ℝ := fun _ _ => 2 with hX0
    have hd := hdir X0 (by norm_num [hX0])
    have hd' : direction demo 0 1 1 X0 0 0 = -3 / 4 := by
      rw [show X0 0 0 = 2 from rfl] at hd; linarith
    have hc : 0 < (direction demo 0 1 1 X0 * 1 * direction demo 0 1 1 X0 * (direction demo 0 1 1 X0 * 1 * direction demo 0 1 1 X0)).trace := by
      simp [Matrix.trace, Matrix.mul_apply, hd']
    obtain ⟨t, h1, -, -⟩ := lineSearch_minimises demo demo_roots (residual 0 1 1 X0 * residual 0 1 1 X0).trace
      (residual 0 1 1 X0 * (direction demo 0 1 1 X0 * 1 * direction demo 0 1 1 X0)).trace _ hc
    have hst : newtonStep demo 0 1 1 X0 = some (X0 + t • direction demo 0 1 1 X0, frob (residual 0 1 1 X0)) := by
      unfold newtonStep; simp only [h1]
    refine ⟨X0 + t • direction demo 0 1 1 X0, ?_, ?_⟩
    · unfold newton
      rw [newtonLoop, hst]
      simp only [newtonLoop]
      split <;> rfl
    · rcases demo_reach _ (.step .start hst) with h | h
      · have hI : t = 0 := by
          rw [Matrix.add_apply, Matrix.smul_apply, smul_eq_mul, hd'] at h
          change 2 + t * (-3 / 4) = 2 at h
          linarith
        have hpos : t ∈ Icc (1 / 10 ^ 5 : ℝ) 2 := by
          obtain ⟨t', h1', h2', -⟩ := lineSearch_minimises demo demo_roots (residual 0 1 1 X0 * residual 0 1 1 X0).trace
            (residual 0 1 1 X0 * (direction demo 0 1 1 X0 * 1 * direction demo 0 1 1 X0)).trace _ hc
          rw [h1] at h1'
          rw [Option.some.inj h1']; exact h2'
        have := hpos.1
        rw [hI] at this
        norm_num at this
      · exact h

/-- `lyapunov_complex_never` applies to a rotation with damping: it is its own Schur form. -/
example : (demo.schur !![-1, 1; -1, -1]).1 1 0 ≠ 0 ∧ SchurOk demo !![-1, 1; -1, -1] ∧ Regular demo !![-1, 1; -1, -1]
    ∧ (!![-1, 1; -1, -1] : Matrix (Fin 2) (Fin 2) ℝ).trace ≠ 0 ∧ (1 : Matrix (Fin 2) (Fin 2) ℝ).PosDef := by
  refine ⟨?_, demo_schur _, ?_, ?_, ?_⟩
  · change (!![-1, 1; -1, -1] : Matrix (Fin 2) (Fin 2) ℝ) 1 0 ≠ 0
    norm_num
  · intro i
    change ((!![-1, 1; -1, -1] : Matrix (Fin 2) (Fin 2) ℝ) + (!![-1, 1; -1, -1] : Matrix (Fin 2) (Fin 2) ℝ) i i • 1).det ≠ 0
    fin_cases i <;> simp [Matrix.det_fin_two] <;> norm_num
  · rw [Matrix.trace_fin_two]; norm_num
  · exact Matrix.PosDef.one

/-- `initRaw_decay` applies to `A = 1`, `B = 1` with the shift 1/2. -/
example : ∃ X Y W : Matrix (Fin 1) (Fin 1) ℝ, initRaw demo (1 / 2) 1 1 = some X ∧ W * Y = 1 ∧ Yᵀ = Y ∧ Wᵀ = W ∧ X = 1ᵀ * W ∧
      (1 + (1 / 2 : ℝ) • (1 : Matrix (Fin 1) (Fin 1) ℝ)) * Y + Y * (1 + (1 / 2 : ℝ) • (1 : Matrix (Fin 1) (Fin 1) ℝ))ᵀ = (2 : ℝ) • (1 * 1ᵀ) ∧
      W * (1 - 1 * X) + (1 - 1 * X)ᵀ * W = -(2 * (1 / 2 : ℝ)) • W := by
  refine initRaw_decay demo demo_solve (1 / 2) 1 1 (demo_schur _) (demo_schur _) (demo_regular_one _ ?_) (demo_real_one _) fun Z hZ => ?_
  · change ((1 : Matrix (Fin 1) (Fin 1) ℝ) + (1 / 2 : ℝ) • 1) 0 0 ≠ 0
    norm_num
  · have h := congrFun (congrFun hZ 0) 0
    have hZ0 : Z 0 0 = 2 / 3 := by
      change (((1 + (1 / 2 : ℝ) • (1 : Matrix (Fin 1) (Fin 1) ℝ)) * Z + Z * (1 + (1 / 2 : ℝ) • (1 : Matrix (Fin 1) (Fin 1) ℝ))ᵀ :
        Matrix (Fin 1) (Fin 1) ℝ)) 0 0
        = ((2 : ℝ) • ((1 : Matrix (Fin 1) (Fin 1) ℝ)ᵀ * 1) * (1ᵀ * 1)ᵀ : Matrix (Fin 1) (Fin 1) ℝ) 0 0 at h
      simp [Matrix.add_mul, Matrix.mul_add] at h
      linarith
    refine ⟨⟨?_, ?_, fun k => ?_, ?_⟩, fun k => ?_⟩
    · change (1 : Matrix (Fin 1) (Fin 1) ℝ) * 1ᵀ = 1
      simp
    · change (1 : Matrix (Fin 1) (Fin 1) ℝ) * 1ᵀ = 1
      simp
    · change 0 ≤ Z _ _
      rw [Subsingleton.elim (⟨k, _⟩ : Fin 1) 0, hZ0]; norm_num
    · change Z = 1 * Matrix.diagonal _ * 1ᵀ
      rw [one_eq_iff, Matrix.transpose_one, Matrix.mul_one, Matrix.one_mul, Matrix.diagonal_apply_eq]
      rfl
    · change 1 / 10 ^ 6 < Z _ _
      rw [Subsingleton.elim (⟨k, _⟩ : Fin 1) 0, hZ0]; norm_num

/-- `gain_cross_scalar` applies: `f = 0`, `g = r = m = 1`, `q = 2`, with `s = 1` solving `3 - 2 s - s^2 = 0`. -/
example : let D := riccatiData (n := 1) (m := 1) 0 1 (fun _ _ => 2) 1 1
    SolvesCare D.1 D.2.1 D.2.2 1 := by
  unfold SolvesCare riccatiData
  rw [one_eq_iff]
  simp
  change (-1 + -1 - 1 : ℝ) + (1 + 2) = 0
  norm_num

/-- A double integrator is controllable from its second state, not from its first. -/
example : (∀ w : Fin 2 → ℝ, (∀ k : ℕ, w ᵥ* ((!![0, 1; 0, 0] : Matrix (Fin 2) (Fin 2) ℝ) ^ k * (!![0; 1] : Matrix (Fin 2) (Fin 1) ℝ)) = 0) → w = 0)
    ∧ ¬ ∀ w : Fin 2 → ℝ, (∀ k : ℕ, w ᵥ* ((!![0, 1; 0, 0] : Matrix (Fin 2) (Fin 2) ℝ) ^ k * (!![1; 0] : Matrix (Fin 2) (Fin 1) ℝ)) = 0) → w = 0 := by
  constructor
  · intro w h
    have h0 := congrFun (h 0) 0
    have h1 := congrFun (h 1) 0
    simp [Matrix.vecMul, dotProduct, Fin.sum_univ_two, Matrix.mul_apply] at h0 h1
    ext i; fin_cases i
    · exact h1
    · exact h0
  · intro h
    have := h ![0, 1] (by
      intro k
      have hcol : (!![0, 1; 0, 0] : Matrix (Fin 2) (Fin 2) ℝ) * (!![1; 0] : Matrix (Fin 2) (Fin 1) ℝ) = 0 := by
        ext i j; fin_cases i <;> fin_cases j <;> simp [Matrix.mul_apply, Fin.sum_univ_two]
      cases k with
      | zero => ext j; fin_cases j; simp [Matrix.vecMul, dotProduct, Fin.sum_univ_two]
      | succ k => rw [pow_succ, Matrix.mul_assoc, hcol, Matrix.mul_zero, Matrix.vecMul_zero])
    have h1 := congrFun this 1
    simp at h1

end Demo

end PolyMPC.Lqr
