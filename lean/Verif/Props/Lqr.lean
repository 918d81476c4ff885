import Verif.Model.Lqr
import Verif.Spec.Lqr
import Mathlib.LinearAlgebra.Matrix.Block
import Mathlib.LinearAlgebra.Matrix.NonsingularInverse
import Mathlib.Analysis.Calculus.LocalExtr.Basic
import Mathlib.Analysis.Calculus.Deriv.Polynomial
import Mathlib.Topology.Order.Compact
import Mathlib.LinearAlgebra.Matrix.Charpoly.LinearMap
import Mathlib.LinearAlgebra.Matrix.Rank
import Mathlib.LinearAlgebra.Matrix.PosDef
import Mathlib.Tactic

/-!
# Riccati and Lyapunov solvers, LQR (C50, C51, C52 and others)
-/

set_option linter.unusedSectionVars false
set_option linter.unusedVariables false

namespace PolyMPC.Lqr
open Matrix Spec Set

variable (e : Ext)

/-- The linear solver solves every nonsingular system. -/
def SolveOk : Prop := ∀ {n : ℕ} (M : Matrix (Fin n) (Fin n) ℝ) (b : Fin n → ℝ), M.det ≠ 0 → M *ᵥ e.solve M b = b

/-- The Schur form of this matrix is a Schur form. -/
def SchurOk {n : ℕ} (A : Matrix (Fin n) (Fin n) ℝ) : Prop :=
  (e.schur A).2 * (e.schur A).2ᵀ = 1 ∧ A = (e.schur A).2 * (e.schur A).1 * (e.schur A).2ᵀ

/-- The Schur form is triangular: all eigenvalues are real. -/
def RealSpectrum {n : ℕ} (A : Matrix (Fin n) (Fin n) ℝ) : Prop := ∀ i j : Fin n, j < i → (e.schur A).1 i j = 0

/-- No shifted factor of the back-substitution is singular. -/
def Regular {n : ℕ} (A : Matrix (Fin n) (Fin n) ℝ) : Prop :=
  ∀ i : Fin n, ((e.schur A).1 + (e.schur A).1 i i • (1 : Matrix (Fin n) (Fin n) ℝ)).det ≠ 0

/-! ### Back-substitution -/

section Lyap
variable {n : ℕ}

theorem foldr_col (T Q1 : Matrix (Fin n) (Fin n) ℝ) :
    ∀ l : List (Fin n), l.Pairwise (· < ·) → ∀ i ∈ l,
      (l.foldr (lyapCol e T Q1) (fun _ _ => 0)) i
        = e.solve (T + T i i • (1 : Matrix (Fin n) (Fin n) ℝ))
            fun r => Q1 r i - ∑ j : Fin n, if i < j then (l.foldr (lyapCol e T Q1) (fun _ _ => 0)) j r * T i j else 0
  | [], _, i, h => absurd h (by simp)
  | a :: l, hl, i, hi => by
    rw [List.pairwise_cons] at hl
    have same : ∀ i, a ≤ i → ∀ r, (∑ j : Fin n, if i < j then ((a :: l).foldr (lyapCol e T Q1) (fun _ _ => 0)) j r * T i j else 0)
        = ∑ j : Fin n, if i < j then (l.foldr (lyapCol e T Q1) (fun _ _ => 0)) j r * T i j else 0 := by
      intro i hai r
      refine Finset.sum_congr rfl fun j _ => ?_
      by_cases hij : i < j
      · rw [if_pos hij, if_pos hij]
        simp only [List.foldr_cons, lyapCol]
        rw [Function.update_of_ne (ne_of_gt (lt_of_le_of_lt hai hij))]
      · rw [if_neg hij, if_neg hij]
    rcases List.mem_cons.1 hi with rfl | hi'
    · simp only [same i le_rfl]
      simp only [List.foldr_cons]
      conv_lhs => rw [lyapCol, Function.update_self]
    · have hai := hl.1 i hi'
      simp only [same i hai.le]
      have := foldr_col T Q1 l hl.2 i hi'
      rw [← this]
      simp only [List.foldr_cons]
      conv_lhs => rw [lyapCol, Function.update_of_ne hai.ne']

theorem finRange_sorted (n : ℕ) : (List.finRange n).Pairwise (· < ·) := List.pairwise_lt_finRange n

/-- The equation each column of the back-substitution satisfies. -/
theorem backSub_col (hs : SolveOk e) (T Q1 : Matrix (Fin n) (Fin n) ℝ)
    (hT : ∀ i, (T + T i i • (1 : Matrix (Fin n) (Fin n) ℝ)).det ≠ 0) (r i : Fin n) :
    (T * backSub e T Q1) r i + T i i * backSub e T Q1 r i + ∑ j : Fin n, (if i < j then backSub e T Q1 r j * T i j else 0) = Q1 r i := by
  have h := foldr_col e T Q1 (List.finRange n) (finRange_sorted n) i (List.mem_finRange i)
  have h2 := congrFun (congrArg (fun v => (T + T i i • (1 : Matrix (Fin n) (Fin n) ℝ)) *ᵥ v) h) r
  simp only [hs _ _ (hT i)] at h2
  simp only [Matrix.add_mulVec, Matrix.smul_mulVec, Matrix.one_mulVec, Pi.add_apply, Pi.smul_apply, smul_eq_mul] at h2
  have h3 : (T * backSub e T Q1) r i = (T *ᵥ (List.foldr (lyapCol e T Q1) (fun _ _ => 0) (List.finRange n)) i) r := by
    simp only [Matrix.mul_apply, Matrix.mulVec, dotProduct, backSub]
  rw [h3]
  simp only [backSub]
  linarith

/-- What the back-substitution leaves out: the entries of `T` below the diagonal. -/
theorem backSub_residual (hs : SolveOk e) (T Q1 : Matrix (Fin n) (Fin n) ℝ)
    (hT : ∀ i, (T + T i i • (1 : Matrix (Fin n) (Fin n) ℝ)).det ≠ 0) :
    T * backSub e T Q1 + backSub e T Q1 * Tᵀ = Q1 + Matrix.of fun r i => ∑ j : Fin n, if j < i then backSub e T Q1 r j * T i j else 0 := by
  ext r i
  have h := backSub_col e hs T Q1 hT r i
  simp only [Matrix.add_apply, Matrix.of_apply, Matrix.mul_apply (M := backSub e T Q1), Matrix.transpose_apply]
  have : ∑ j, backSub e T Q1 r j * T i j = T i i * backSub e T Q1 r i + (∑ j : Fin n, (if i < j then backSub e T Q1 r j * T i j else 0))
      + ∑ j : Fin n, if j < i then backSub e T Q1 r j * T i j else 0 := by
    have hsingle : T i i * backSub e T Q1 r i = ∑ j : Fin n, if j = i then backSub e T Q1 r j * T i j else 0 := by
      rw [Finset.sum_ite_eq' Finset.univ i, if_pos (Finset.mem_univ i), mul_comm]
    rw [hsingle, ← Finset.sum_add_distrib, ← Finset.sum_add_distrib]
    refine Finset.sum_congr rfl fun j _ => ?_
    rcases lt_trichotomy i j with h | h | h
    · simp [h, h.ne', not_lt.2 h.le]
    · simp [h]
    · simp [h, h.ne, not_lt.2 h.le]
  rw [this]
  linarith

theorem orth_left {U : Matrix (Fin n) (Fin n) ℝ} (h : U * Uᵀ = 1) : Uᵀ * U = 1 := mul_eq_one_comm.1 h

/-- C52. What `lyapunov` returns misses its equation by the entries of the Schur factor below the diagonal. -/
theorem lyapunov_residual (hs : SolveOk e) (A Q : Matrix (Fin n) (Fin n) ℝ) (hA : SchurOk e A) (hr : Regular e A) :
    A * lyapunov e A Q + lyapunov e A Q * Aᵀ
      = Q + (e.schur A).2 * (Matrix.of fun r i => ∑ j : Fin n,
          if j < i then ((e.schur A).2ᵀ * lyapunov e A Q * (e.schur A).2) r j * (e.schur A).1 i j else 0) * (e.schur A).2ᵀ := by
  obtain ⟨hU, hA⟩ := hA
  generalize hX : lyapunov e A Q = X
  have hX' := hX
  simp only [lyapunov] at hX'
  have hR := backSub_residual e hs (e.schur A).1 ((e.schur A).2ᵀ * Q * (e.schur A).2) hr
  generalize backSub e (e.schur A).1 ((e.schur A).2ᵀ * Q * (e.schur A).2) = Y at hR hX'
  revert hA hX' hR hU
  generalize (e.schur A).1 = T
  generalize (e.schur A).2 = U
  intro hU hA hR hX'
  have hU' := orth_left hU
  have hY : Uᵀ * X * U = Y := by
    rw [← hX']
    calc Uᵀ * (U * Y * Uᵀ) * U = (Uᵀ * U) * Y * (Uᵀ * U) := by simp only [Matrix.mul_assoc]
      _ = Y := by rw [hU', Matrix.one_mul, Matrix.mul_one]
  rw [hY]
  have h1 : A * X + X * Aᵀ = U * (T * Y + Y * Tᵀ) * Uᵀ := by
    rw [hA, ← hX']
    have e1 : U * T * Uᵀ * (U * Y * Uᵀ) = U * (T * Y) * Uᵀ := by
      calc U * T * Uᵀ * (U * Y * Uᵀ) = U * T * (Uᵀ * U) * Y * Uᵀ := by simp only [Matrix.mul_assoc]
        _ = _ := by rw [hU', Matrix.mul_one]; simp only [Matrix.mul_assoc]
    have e2 : U * Y * Uᵀ * (U * T * Uᵀ)ᵀ = U * (Y * Tᵀ) * Uᵀ := by
      calc U * Y * Uᵀ * (U * T * Uᵀ)ᵀ = U * Y * (Uᵀ * U) * Tᵀ * Uᵀ := by
            simp only [Matrix.transpose_mul, Matrix.transpose_transpose, Matrix.mul_assoc]
        _ = _ := by rw [hU', Matrix.mul_one]; simp only [Matrix.mul_assoc]
    rw [e1, e2, ← Matrix.add_mul, ← Matrix.mul_add]
  rw [h1, hR, Matrix.mul_add, Matrix.add_mul]
  congr 1
  calc U * (Uᵀ * Q * U) * Uᵀ = (U * Uᵀ) * Q * (U * Uᵀ) := by simp only [Matrix.mul_assoc]
    _ = Q := by rw [hU, Matrix.one_mul, Matrix.mul_one]

/-- C52. With real eigenvalues no two of which (nor one twice) sum to zero, `lyapunov` solves its equation. -/
theorem lyapunov_solves (hs : SolveOk e) (A Q : Matrix (Fin n) (Fin n) ℝ) (hA : SchurOk e A) (hr : Regular e A) (ht : RealSpectrum e A) :
    SolvesLyapunov A Q (lyapunov e A Q) := by
  unfold SolvesLyapunov
  rw [lyapunov_residual e hs A Q hA hr]
  have : (Matrix.of fun r i => ∑ j : Fin n,
      if j < i then ((e.schur A).2ᵀ * lyapunov e A Q * (e.schur A).2) r j * (e.schur A).1 i j else 0) = 0 := by
    ext r i
    rw [Matrix.of_apply, Matrix.zero_apply]
    refine Finset.sum_eq_zero fun j _ => ?_
    split
    · rw [ht i j ‹_›, mul_zero]
    · rfl
  rw [this, Matrix.mul_zero, Matrix.zero_mul, add_zero]

/-- C52. Exactly when `lyapunov` solves its equation. -/
theorem lyapunov_solves_iff (hs : SolveOk e) (A Q : Matrix (Fin n) (Fin n) ℝ) (hA : SchurOk e A) (hr : Regular e A) :
    SolvesLyapunov A Q (lyapunov e A Q) ↔ ∀ r i : Fin n, ∑ j : Fin n,
      (if j < i then ((e.schur A).2ᵀ * lyapunov e A Q * (e.schur A).2) r j * (e.schur A).1 i j else 0) = 0 := by
  unfold SolvesLyapunov
  rw [lyapunov_residual e hs A Q hA hr, add_eq_left]
  have hU := hA.1
  have hU' := orth_left hU
  generalize hD : (Matrix.of fun r i => ∑ j : Fin n,
      if j < i then ((e.schur A).2ᵀ * lyapunov e A Q * (e.schur A).2) r j * (e.schur A).1 i j else 0) = D
  have hD' : ∀ r i : Fin n, (∑ j : Fin n,
      if j < i then ((e.schur A).2ᵀ * lyapunov e A Q * (e.schur A).2) r j * (e.schur A).1 i j else 0) = D r i := by
    intro r i; rw [← hD, Matrix.of_apply]
  simp only [hD']
  constructor
  · intro h r i
    have : D = 0 := by
      calc D = ((e.schur A).2ᵀ * (e.schur A).2) * D * ((e.schur A).2ᵀ * (e.schur A).2) := by rw [hU', Matrix.one_mul, Matrix.mul_one]
        _ = (e.schur A).2ᵀ * ((e.schur A).2 * D * (e.schur A).2ᵀ) * (e.schur A).2 := by simp only [Matrix.mul_assoc]
        _ = 0 := by rw [h, Matrix.mul_zero, Matrix.zero_mul]
    rw [this]; rfl
  · intro h
    have : D = 0 := by ext r i; exact h r i
    rw [this, Matrix.mul_zero, Matrix.zero_mul]

/-- C52. For a 2x2 matrix with complex eigenvalues (a nonzero entry below the diagonal of its Schur factor) and nonzero trace, `lyapunov` solves its
equation for no positive definite right-hand side. -/
theorem lyapunov_complex_never (hs : SolveOk e) (A Q : Matrix (Fin 2) (Fin 2) ℝ) (hA : SchurOk e A) (hr : Regular e A)
    (hc : (e.schur A).1 1 0 ≠ 0) (htr : A.trace ≠ 0) (hQ : Q.PosDef) : ¬ SolvesLyapunov A Q (lyapunov e A Q) := by
  intro h
  have h0 := (lyapunov_solves_iff e hs A Q hA hr).1 h
  obtain ⟨hU, hA⟩ := hA
  generalize lyapunov e A Q = X at h h0
  revert hU hA hc h0
  generalize (e.schur A).1 = T
  generalize (e.schur A).2 = U
  intro hc hU hA h0
  have hU' := orth_left hU
  have htrT : A.trace = T.trace := by
    rw [hA, Matrix.trace_mul_comm, ← Matrix.mul_assoc, hU', Matrix.one_mul]
  have hEq : T * (Uᵀ * X * U) + Uᵀ * X * U * Tᵀ = Uᵀ * Q * U := by
    unfold SolvesLyapunov at h
    rw [← h, hA, Matrix.mul_add, Matrix.add_mul]
    congr 1
    · symm
      calc Uᵀ * (U * T * Uᵀ * X) * U = (Uᵀ * U) * T * (Uᵀ * X * U) := by simp only [Matrix.mul_assoc]
        _ = _ := by rw [hU', Matrix.one_mul]
    · symm
      calc Uᵀ * (X * (U * T * Uᵀ)ᵀ) * U = Uᵀ * X * U * Tᵀ * (Uᵀ * U) := by
            simp only [Matrix.transpose_mul, Matrix.transpose_transpose, Matrix.mul_assoc]
        _ = _ := by rw [hU', Matrix.mul_one]
  have hQs : Qᵀ = Q := by simpa using hQ.isHermitian.eq
  have hQ1s : (Uᵀ * Q * U)ᵀ = Uᵀ * Q * U := by
    simp only [Matrix.transpose_mul, Matrix.transpose_transpose, hQs, Matrix.mul_assoc]
  have hpos : 0 < (Uᵀ * Q * U) 0 0 := by
    have hcol : (fun i => U i 0) ≠ 0 := by
      intro hz
      have h1 := congrFun (congrFun hU' 0) 0
      rw [Matrix.mul_apply] at h1
      simp only [Matrix.transpose_apply, Matrix.one_apply_eq] at h1
      rw [Finset.sum_eq_zero (fun i _ => by rw [congrFun hz i]; simp)] at h1
      exact one_ne_zero h1.symm
    have := hQ.dotProduct_mulVec_pos hcol
    have e2 : (Uᵀ * Q * U) 0 0 = star (fun i => U i 0) ⬝ᵥ Q *ᵥ (fun i => U i 0) := by
      rw [Matrix.mul_assoc, Matrix.mul_apply]
      simp only [Matrix.transpose_apply, dotProduct, Matrix.mulVec, Matrix.mul_apply, Pi.star_apply, star_trivial]
    rw [e2]; exact this
  generalize Uᵀ * X * U = Y at h0 hEq
  generalize Uᵀ * Q * U = Z at hEq hQ1s hpos
  rw [htrT, Matrix.trace_fin_two] at htr
  have hY0 : Y 0 0 = 0 := by
    have := h0 0 1
    simp only [Fin.sum_univ_two] at this
    simpa [hc] using this
  have hY1 : Y 1 0 = 0 := by
    have := h0 1 1
    simp only [Fin.sum_univ_two] at this
    simpa [hc] using this
  have hz : ∀ i j, (T * Y + Y * Tᵀ) i j = Z i j := fun i j => by rw [hEq]
  simp only [Matrix.add_apply, Matrix.mul_apply, Matrix.transpose_apply, Fin.sum_univ_two] at hz
  have h00 := hz 0 0
  have h01 := hz 0 1
  have h10 := hz 1 0
  have hs' : Z 0 1 = Z 1 0 := congrFun (congrFun hQ1s 1) 0
  rw [hY0, hY1] at *
  have : (T 0 0 + T 1 1) * Y 0 1 = 0 := by linarith
  rcases mul_eq_zero.1 this with h | h
  · exact htr h
  · rw [h] at h00; linarith

/-- For a triangular factor, `Regular` says that no two eigenvalues sum to zero. -/
theorem regular_iff (A : Matrix (Fin n) (Fin n) ℝ) (ht : RealSpectrum e A) :
    Regular e A ↔ ∀ i j, (e.schur A).1 i i + (e.schur A).1 j j ≠ 0 := by
  unfold Regular
  refine forall_congr' fun i => ?_
  rw [Matrix.det_of_isUpperTriangular, Finset.prod_ne_zero_iff]
  · simp only [Finset.mem_univ, true_implies, Matrix.add_apply, Matrix.smul_apply, Matrix.one_apply_eq, smul_eq_mul, mul_one]
    exact forall_congr' fun j => by rw [add_comm]
  · intro a b hab
    have hab' : b < a := hab
    rw [Matrix.add_apply, ht a b hab', Matrix.smul_apply, Matrix.one_apply_ne hab'.ne', smul_zero, add_zero]

/-- Under the hypotheses of `lyapunov_solves` there is no other solution. -/
theorem lyapunov_unique (A Q X Y : Matrix (Fin n) (Fin n) ℝ) (hA : SchurOk e A) (hr : Regular e A) (ht : RealSpectrum e A)
    (hX : SolvesLyapunov A Q X) (hY : SolvesLyapunov A Q Y) : X = Y := by
  obtain ⟨hU, hA⟩ := hA
  unfold RealSpectrum at ht
  unfold Regular at hr
  revert hU hA ht hr
  generalize (e.schur A).1 = T
  generalize (e.schur A).2 = U
  intro hr ht hU hA
  have hU' := orth_left hU
  have key : ∀ D : Matrix (Fin n) (Fin n) ℝ, T * D + D * Tᵀ = 0 → D = 0 := by
    intro D hD
    have : ∀ m, ∀ i : Fin n, n - i.val = m → ∀ r, D r i = 0 := by
      intro m
      induction m using Nat.strong_induction_on with
      | _ m ih =>
        intro i hi
        have hcol : (T + T i i • (1 : Matrix (Fin n) (Fin n) ℝ)) *ᵥ (fun r => D r i) = 0 := by
          ext r
          have h := congrFun (congrFun hD r) i
          simp only [Matrix.add_apply, Matrix.mul_apply, Matrix.transpose_apply, Matrix.zero_apply] at h
          rw [Matrix.add_mulVec, Matrix.smul_mulVec, Matrix.one_mulVec, Pi.add_apply, Pi.smul_apply, smul_eq_mul, Pi.zero_apply, ← h]
          change ∑ j, T r j * D j i + T i i * D r i = _
          congr 1
          rw [Finset.sum_eq_single i]
          · ring
          · intro j _ hj
            rcases lt_or_gt_of_ne hj with hlt | hgt
            · rw [ht i j hlt, mul_zero]
            · rw [ih (n - j.val) (by have := Fin.lt_def.1 hgt; omega) j rfl r, zero_mul]
          · simp
        have := Matrix.eq_zero_of_mulVec_eq_zero (hr i) hcol
        intro r
        exact congrFun this r
    ext r i
    exact this _ i rfl r
  have hD : Uᵀ * (X - Y) * U = 0 := by
    apply key
    have hXY : A * (X - Y) + (X - Y) * Aᵀ = 0 := by
      unfold SolvesLyapunov at hX hY
      rw [Matrix.mul_sub, Matrix.sub_mul]
      rw [← hY] at hX
      have := sub_eq_zero.2 hX
      rw [← this]; abel
    have : Uᵀ * (A * (X - Y) + (X - Y) * Aᵀ) * U = T * (Uᵀ * (X - Y) * U) + Uᵀ * (X - Y) * U * Tᵀ := by
      rw [Matrix.mul_add, Matrix.add_mul, hA]
      congr 1
      · calc Uᵀ * (U * T * Uᵀ * (X - Y)) * U = (Uᵀ * U) * T * (Uᵀ * (X - Y) * U) := by simp only [Matrix.mul_assoc]
          _ = _ := by rw [hU', Matrix.one_mul]
      · calc Uᵀ * ((X - Y) * (U * T * Uᵀ)ᵀ) * U = Uᵀ * (X - Y) * U * Tᵀ * (Uᵀ * U) := by
              simp only [Matrix.transpose_mul, Matrix.transpose_transpose, Matrix.mul_assoc]
          _ = _ := by rw [hU', Matrix.mul_one]
    rw [← this, hXY, Matrix.mul_zero, Matrix.zero_mul]
  have : X - Y = U * (Uᵀ * (X - Y) * U) * Uᵀ := by
    calc X - Y = (U * Uᵀ) * (X - Y) * (U * Uᵀ) := by rw [hU, Matrix.one_mul, Matrix.mul_one]
      _ = _ := by simp only [Matrix.mul_assoc]
  rw [hD, Matrix.mul_zero, Matrix.zero_mul] at this
  exact sub_eq_zero.1 this

/-- C52. A symmetric right-hand side gives a symmetric solution. -/
theorem lyapunov_symm (hs : SolveOk e) (A Q : Matrix (Fin n) (Fin n) ℝ) (hA : SchurOk e A) (hr : Regular e A) (ht : RealSpectrum e A)
    (hQ : Qᵀ = Q) : (lyapunov e A Q)ᵀ = lyapunov e A Q := by
  have h := lyapunov_solves e hs A Q hA hr ht
  refine lyapunov_unique e A Q _ _ hA hr ht ?_ h
  unfold SolvesLyapunov at h ⊢
  have := congrArg Matrix.transpose h
  rw [Matrix.transpose_add, Matrix.transpose_mul, Matrix.transpose_mul, Matrix.transpose_transpose, hQ] at this
  rw [add_comm]; exact this

end Lyap

/-! ### Line search -/

/-- The root finder yields every real root of a cubic with nonzero leading coefficient (and possibly real parts of other roots). -/
def RootsOk : Prop := ∀ (q : Fin 4 → ℝ), q 3 ≠ 0 → ∀ t : ℝ, q 0 + q 1 * t + q 2 * t ^ 2 + q 3 * t ^ 3 = 0 → t ∈ e.roots q

theorem foldl_candidate (p : ℝ → ℝ) : ∀ (l : List ℝ) (a : ℝ), a ∈ Icc (1 / 10 ^ 5 : ℝ) 2 →
    l.foldl (lsCandidate p) a ∈ Icc (1 / 10 ^ 5 : ℝ) 2 ∧ p (l.foldl (lsCandidate p) a) ≤ p a
      ∧ ∀ r ∈ l, r ∈ Icc (1 / 10 ^ 5 : ℝ) 2 → p (l.foldl (lsCandidate p) a) ≤ p r
  | [], a, ha => ⟨ha, le_rfl, by simp⟩
  | x :: l, a, ha => by
    have hstep : lsCandidate p a x ∈ Icc (1 / 10 ^ 5 : ℝ) 2 ∧ p (lsCandidate p a x) ≤ p a
        ∧ (x ∈ Icc (1 / 10 ^ 5 : ℝ) 2 → p (lsCandidate p a x) ≤ p x) := by
      unfold lsCandidate
      by_cases h : 1 / 10 ^ 5 ≤ x ∧ x ≤ 2 ∧ p x < p a
      · rw [if_pos h]
        exact ⟨⟨h.1, h.2.1⟩, h.2.2.le, fun _ => le_rfl⟩
      · rw [if_neg h]
        refine ⟨ha, le_rfl, fun hx => ?_⟩
        by_contra hlt
        exact h ⟨hx.1, hx.2, not_le.1 hlt⟩
    obtain ⟨h1, h2, h3⟩ := foldl_candidate p l (lsCandidate p a x) hstep.1
    refine ⟨h1, h2.trans hstep.2.1, fun r hr hrI => ?_⟩
    rcases List.mem_cons.1 hr with rfl | hr'
    · exact h2.trans (hstep.2.2 hrI)
    · exact h3 r hr' hrI

theorem poly_hasDeriv (a b c t : ℝ) : HasDerivAt (poly a b c) (-2 * a + 2 * (a - 2 * b) * t + 6 * b * t ^ 2 + 4 * c * t ^ 3) t := by
  have h0 : HasDerivAt (fun t : ℝ => a + (-2 * a) * t + (a - 2 * b) * t ^ 2 + 2 * b * t ^ 3 + c * t ^ 4)
      (-2 * a + 2 * (a - 2 * b) * t + 6 * b * t ^ 2 + 4 * c * t ^ 3) t := by
    refine HasDerivAt.congr_deriv (HasDerivAt.congr_of_eventuallyEq ((((((hasDerivAt_id t).const_mul (-2 * a)).const_add a).add
      ((hasDerivAt_pow 2 t).const_mul (a - 2 * b))).add ((hasDerivAt_pow 3 t).const_mul (2 * b))).add ((hasDerivAt_pow 4 t).const_mul c))
      (Filter.Eventually.of_forall fun s => ?_)) ?_
    · simp only [Pi.add_apply, id]
    · push_cast; ring
  have : poly a b c = fun t : ℝ => a + (-2 * a) * t + (a - 2 * b) * t ^ 2 + 2 * b * t ^ 3 + c * t ^ 4 := by
    funext t; unfold poly; ring
  rw [this]; exact h0

/-- The returned step is the best in the interval for the divided polynomial. -/
theorem lineSearch_divided (hroots : RootsOk e) (a b c : ℝ) (hc : c ≠ 0) :
    ∃ t, lineSearch e a b c = some t ∧ t ∈ Icc (1 / 10 ^ 5 : ℝ) 2 ∧ ∀ s ∈ Icc (1 / 10 ^ 5 : ℝ) 2, 1 / c * poly a b c t ≤ 1 / c * poly a b c s := by
  refine ⟨_, by rw [lineSearch, if_neg hc], ?_⟩
  set p : ℝ → ℝ := fun t => 1 / c * poly a b c t with hp
  set pd : Fin 4 → ℝ := ![1 / (4 * c) * (-2 * a), 1 / (4 * c) * (2 * (a - 2 * b)), 1 / (4 * c) * (6 * b), 1 / (4 * c) * (4 * c)] with hpd
  set a0 : ℝ := if p (1 / 10 ^ 5) < p 2 then 1 / 10 ^ 5 else 2 with ha0
  have ha0I : a0 ∈ Icc (1 / 10 ^ 5 : ℝ) 2 := by rw [ha0]; split <;> constructor <;> norm_num
  have ha0lb : p a0 ≤ p (1 / 10 ^ 5) := by
    rw [ha0]; split
    · exact le_rfl
    · exact not_lt.1 ‹_›
  have ha0ub : p a0 ≤ p 2 := by
    rw [ha0]; split
    · exact (by assumption : p (1 / 10 ^ 5) < p 2).le
    · exact le_rfl
  obtain ⟨h1, h2, h3⟩ := foldl_candidate p (e.roots pd) a0 ha0I
  refine ⟨h1, fun s hs => ?_⟩
  change p ((e.roots pd).foldl (lsCandidate p) a0) ≤ p s
  have hder : ∀ t, HasDerivAt p (1 / c * (-2 * a + 2 * (a - 2 * b) * t + 6 * b * t ^ 2 + 4 * c * t ^ 3)) t :=
    fun t => (poly_hasDeriv a b c t).const_mul (1 / c)
  have hcont : ContinuousOn p (Icc (1 / 10 ^ 5 : ℝ) 2) := fun t _ => (hder t).continuousAt.continuousWithinAt
  obtain ⟨m, hmI, hm⟩ := isCompact_Icc.exists_isMinOn ⟨s, hs⟩ hcont
  refine le_trans ?_ (hm hs)
  rcases eq_or_lt_of_le hmI.1 with hl | hl
  · rw [← hl]; exact h2.trans ha0lb
  · rcases eq_or_lt_of_le hmI.2 with hu | hu
    · rw [hu]; exact h2.trans ha0ub
    · have hloc : IsLocalMin p m := hm.isLocalMin (Icc_mem_nhds hl hu)
      have hz := hloc.hasDerivAt_eq_zero (hder m)
      refine h3 m (hroots pd ?_ m ?_) hmI
      · change 1 / (4 * c) * (4 * c) ≠ 0
        rw [one_div, inv_mul_cancel₀ (by positivity)]; exact one_ne_zero
      · change 1 / (4 * c) * (-2 * a) + 1 / (4 * c) * (2 * (a - 2 * b)) * m + 1 / (4 * c) * (6 * b) * m ^ 2 + 1 / (4 * c) * (4 * c) * m ^ 3 = 0
        have : 1 / (4 * c) * (-2 * a) + 1 / (4 * c) * (2 * (a - 2 * b)) * m + 1 / (4 * c) * (6 * b) * m ^ 2 + 1 / (4 * c) * (4 * c) * m ^ 3
            = 1 / 4 * (1 / c * (-2 * a + 2 * (a - 2 * b) * m + 6 * b * m ^ 2 + 4 * c * m ^ 3)) := by
          field_simp
        rw [this, hz, mul_zero]

/-- C50. For a positive leading coefficient the step is in [1e-5, 2] and minimises the quartic there. -/
theorem lineSearch_minimises (hroots : RootsOk e) (a b c : ℝ) (hc : 0 < c) :
    ∃ t, lineSearch e a b c = some t ∧ t ∈ Icc (1 / 10 ^ 5 : ℝ) 2 ∧
      IsMinOn (fun t => a - 2 * a * t + (a - 2 * b) * t ^ 2 + 2 * b * t ^ 3 + c * t ^ 4) (Icc (1 / 10 ^ 5) 2) t := by
  obtain ⟨t, h1, h2, h3⟩ := lineSearch_divided e hroots a b c hc.ne'
  refine ⟨t, h1, h2, fun s hs => ?_⟩
  have := le_of_mul_le_mul_left (h3 s hs) (by positivity)
  unfold poly at this
  simp only [mem_setOf_eq]
  linarith

/-- C50. For a negative leading coefficient, which the division makes positive, the step *maximises* the quartic. -/
theorem lineSearch_maximises (hroots : RootsOk e) (a b c : ℝ) (hc : c < 0) :
    ∃ t, lineSearch e a b c = some t ∧ t ∈ Icc (1 / 10 ^ 5 : ℝ) 2 ∧
      IsMaxOn (fun t => a - 2 * a * t + (a - 2 * b) * t ^ 2 + 2 * b * t ^ 3 + c * t ^ 4) (Icc (1 / 10 ^ 5) 2) t := by
  obtain ⟨t, h1, h2, h3⟩ := lineSearch_divided e hroots a b c hc.ne
  refine ⟨t, h1, h2, fun s hs => ?_⟩
  have := (mul_le_mul_left_of_neg (by rw [one_div]; exact inv_lt_zero.2 hc)).1 (h3 s hs)
  unfold poly at this
  simp only [mem_setOf_eq]
  linarith

/-! ### Newton iteration -/

section Newton
variable {n : ℕ}

theorem residual_zero_iff (A B C X : Matrix (Fin n) (Fin n) ℝ) : residual A B C X = 0 ↔ SolvesCare A B C X := by
  unfold residual SolvesCare
  rw [show C + (X * A + Aᵀ * X - X * B * X) = Aᵀ * X + X * A - X * B * X + C by abel]

/-- The residual along a direction that solves the Newton equation. -/
theorem residual_along (A B C X H : Matrix (Fin n) (Fin n) ℝ) (hX : Xᵀ = X) (hB : Bᵀ = B)
    (hH : (A - B * X)ᵀ * H + H * (A - B * X) = -residual A B C X) (t : ℝ) :
    residual A B C (X + t • H) = (1 - t) • residual A B C X - t ^ 2 • (H * B * H) := by
  rw [Matrix.transpose_sub, Matrix.transpose_mul, hX, hB] at hH
  have e1 : residual A B C (X + t • H) = residual A B C X + t • ((Aᵀ - X * B) * H + H * (A - B * X)) - t ^ 2 • (H * B * H) := by
    unfold residual
    simp only [Matrix.add_mul, Matrix.mul_add, Matrix.smul_mul, Matrix.mul_smul, Matrix.sub_mul, Matrix.mul_sub, Matrix.mul_assoc]
    module
  rw [e1, hH]
  module

theorem trace_sq_symm (R : Matrix (Fin n) (Fin n) ℝ) (hR : Rᵀ = R) : (R * R).trace = sqNorm R := by
  unfold sqNorm Matrix.trace
  refine Finset.sum_congr rfl fun i _ => ?_
  rw [Matrix.diag_apply, Matrix.mul_apply]
  refine Finset.sum_congr rfl fun j _ => ?_
  rw [show R j i = R i j from congrFun (congrFun hR i) j, sq]

theorem trace_mul_symm (R V : Matrix (Fin n) (Fin n) ℝ) (hV : Vᵀ = V) : (R * V).trace = ∑ i, ∑ j, R i j * V i j := by
  unfold Matrix.trace
  refine Finset.sum_congr rfl fun i _ => ?_
  rw [Matrix.diag_apply, Matrix.mul_apply]
  refine Finset.sum_congr rfl fun j _ => ?_
  rw [show V j i = V i j from congrFun (congrFun hV i) j]

theorem residual_symm (A B C X : Matrix (Fin n) (Fin n) ℝ) (hX : Xᵀ = X) (hB : Bᵀ = B) (hC : Cᵀ = C) :
    (residual A B C X)ᵀ = residual A B C X := by
  unfold residual
  simp only [Matrix.transpose_add, Matrix.transpose_sub, Matrix.transpose_mul, Matrix.transpose_transpose, hX, hB, hC]
  rw [Matrix.mul_assoc]; abel

/-- C50. The quartic whose coefficients are passed to the line search is the squared norm of the Riccati residual along the Newton direction. -/
theorem quartic_is_residual (A B C X H : Matrix (Fin n) (Fin n) ℝ) (hX : Xᵀ = X) (hB : Bᵀ = B) (hC : Cᵀ = C) (hHs : Hᵀ = H)
    (hH : (A - B * X)ᵀ * H + H * (A - B * X) = -residual A B C X) (t : ℝ) :
    sqNorm (residual A B C (X + t • H)) = (residual A B C X * residual A B C X).trace
      - 2 * (residual A B C X * residual A B C X).trace * t
      + ((residual A B C X * residual A B C X).trace - 2 * (residual A B C X * (H * B * H)).trace) * t ^ 2
      + 2 * (residual A B C X * (H * B * H)).trace * t ^ 3 + (H * B * H * (H * B * H)).trace * t ^ 4 := by
  have hsym : (X + t • H)ᵀ = X + t • H := by rw [Matrix.transpose_add, Matrix.transpose_smul, hX, hHs]
  rw [← trace_sq_symm _ (residual_symm A B C _ hsym hB hC), residual_along A B C X H hX hB hH t]
  generalize residual A B C X = R
  generalize H * B * H = V
  simp only [Matrix.sub_mul, Matrix.mul_sub, Matrix.smul_mul, Matrix.mul_smul, Matrix.trace_sub, Matrix.trace_smul, smul_eq_mul]
  rw [Matrix.trace_mul_comm V R]
  ring

/-- The hypotheses under which the Lyapunov equation of a Newton step is solved. -/
def GoodAt (A B X : Matrix (Fin n) (Fin n) ℝ) : Prop :=
  SchurOk e (A - B * X)ᵀ ∧ Regular e (A - B * X)ᵀ ∧ RealSpectrum e (A - B * X)ᵀ

theorem direction_solves (hs : SolveOk e) (A B C X : Matrix (Fin n) (Fin n) ℝ) (hg : GoodAt e A B X) :
    (A - B * X)ᵀ * direction e A B C X + direction e A B C X * (A - B * X) = -residual A B C X := by
  have h := lyapunov_solves e hs _ (-residual A B C X) hg.1 hg.2.1 hg.2.2
  unfold SolvesLyapunov at h
  rw [Matrix.transpose_transpose] at h
  exact h

theorem direction_symm (hs : SolveOk e) (A B C X : Matrix (Fin n) (Fin n) ℝ) (hg : GoodAt e A B X) (hX : Xᵀ = X) (hB : Bᵀ = B) (hC : Cᵀ = C) :
    (direction e A B C X)ᵀ = direction e A B C X :=
  lyapunov_symm e hs _ _ hg.1 hg.2.1 hg.2.2 (by rw [Matrix.transpose_neg, residual_symm A B C X hX hB hC])

/-- The number `tr(V V)` of a step -/
noncomputable def leading (A B C X : Matrix (Fin n) (Fin n) ℝ) : ℝ := sqNorm (direction e A B C X * B * direction e A B C X)

theorem sqNorm_nonneg (X : Matrix (Fin n) (Fin n) ℝ) : 0 ≤ sqNorm X :=
  Finset.sum_nonneg fun _ _ => Finset.sum_nonneg fun _ _ => sq_nonneg _

theorem v_symm {H B : Matrix (Fin n) (Fin n) ℝ} (hH : Hᵀ = H) (hB : Bᵀ = B) : (H * B * H)ᵀ = H * B * H := by
  rw [Matrix.transpose_mul, Matrix.transpose_mul, hH, hB, Matrix.mul_assoc]

/-- C50. A Newton step at a symmetric iterate: the new iterate is symmetric, and no step length in [1e-5, 2] along the Newton direction gives a
smaller residual. -/
theorem newtonStep_best (hs : SolveOk e) (hroots : RootsOk e) (A B C X : Matrix (Fin n) (Fin n) ℝ) (hg : GoodAt e A B X)
    (hX : Xᵀ = X) (hB : Bᵀ = B) (hC : Cᵀ = C) (X' : Matrix (Fin n) (Fin n) ℝ) (err : ℝ) (hstep : newtonStep e A B C X = some (X', err)) :
    X'ᵀ = X' ∧ err = Real.sqrt (sqNorm (residual A B C X)) ∧ ∃ H : Matrix (Fin n) (Fin n) ℝ,
      (A - B * X)ᵀ * H + H * (A - B * X) = -residual A B C X ∧
      (∃ t ∈ Icc (1 / 10 ^ 5 : ℝ) 2, X' = X + t • H) ∧
      ∀ s ∈ Icc (1 / 10 ^ 5 : ℝ) 2, sqNorm (residual A B C X') ≤ sqNorm (residual A B C (X + s • H)) := by
  have hHs := direction_symm e hs A B C X hg hX hB hC
  have hH := direction_solves e hs A B C X hg
  unfold newtonStep at hstep
  simp only at hstep
  generalize hd : direction e A B C X = H at hstep hHs hH
  have hV := v_symm hHs hB
  have hc0 : 0 ≤ (H * B * H * (H * B * H)).trace := by rw [trace_sq_symm _ hV]; exact sqNorm_nonneg _
  rcases hc0.eq_or_lt with hc | hc
  · rw [← hc, lineSearch, if_pos rfl] at hstep
    simp at hstep
  · obtain ⟨t, h1, h2, h3⟩ := lineSearch_minimises e hroots (residual A B C X * residual A B C X).trace
      (residual A B C X * (H * B * H)).trace _ hc
    rw [h1] at hstep
    simp only [Option.some.injEq, Prod.mk.injEq] at hstep
    obtain ⟨rfl, rfl⟩ := hstep
    refine ⟨by rw [Matrix.transpose_add, Matrix.transpose_smul, hX, hHs], ?_, H, hH, ⟨t, h2, rfl⟩, fun s hs' => ?_⟩
    · unfold frob sqNorm; simp only [sq]
    · rw [quartic_is_residual A B C X H hX hB hC hHs hH t, quartic_is_residual A B C X H hX hB hC hHs hH s]
      exact h3 hs'

/-- At a solution of the Riccati equation a Newton step divides zero by zero. -/
theorem newtonStep_at_solution (hs : SolveOk e) (A B C X : Matrix (Fin n) (Fin n) ℝ) (hg : GoodAt e A B X) (hsol : SolvesCare A B C X) :
    newtonStep e A B C X = none := by
  have hR := (residual_zero_iff A B C X).2 hsol
  have hH : direction e A B C X = 0 := by
    refine lyapunov_unique e (A - B * X)ᵀ 0 _ _ hg.1 hg.2.1 hg.2.2 ?_ ?_
    · have := direction_solves e hs A B C X hg
      unfold SolvesLyapunov
      rw [Matrix.transpose_transpose, this, hR, neg_zero]
    · unfold SolvesLyapunov; simp
  unfold newtonStep
  simp only [hH, hR, Matrix.zero_mul, Matrix.mul_zero, Matrix.trace_zero]
  rw [lineSearch, if_pos rfl]

theorem cauchy (R V : Matrix (Fin n) (Fin n) ℝ) : (∑ i, ∑ j, R i j * V i j) ^ 2 ≤ sqNorm R * sqNorm V := by
  unfold sqNorm
  simp only [← Finset.sum_product']
  exact Finset.sum_mul_sq_le_sq_mul_sq _ _ _

/-- C50. A step does not increase the residual, unless the second-order term is 1e10 times larger than the residual. -/
theorem newtonStep_decreases (hs : SolveOk e) (hroots : RootsOk e) (A B C X : Matrix (Fin n) (Fin n) ℝ) (hg : GoodAt e A B X)
    (hX : Xᵀ = X) (hB : Bᵀ = B) (hC : Cᵀ = C) (X' : Matrix (Fin n) (Fin n) ℝ) (err : ℝ) (hstep : newtonStep e A B C X = some (X', err))
    (hsmall : leading e A B C X ≤ 10 ^ 10 * sqNorm (residual A B C X)) :
    sqNorm (residual A B C X') ≤ sqNorm (residual A B C X) := by
  have hHs := direction_symm e hs A B C X hg hX hB hC
  have hH := direction_solves e hs A B C X hg
  obtain ⟨-, -, H', hH', -, hbest⟩ := newtonStep_best e hs hroots A B C X hg hX hB hC X' err hstep
  have hHH : H' = direction e A B C X := by
    refine lyapunov_unique e (A - B * X)ᵀ (-residual A B C X) _ _ hg.1 hg.2.1 hg.2.2 ?_ ?_ <;>
      unfold SolvesLyapunov <;> rw [Matrix.transpose_transpose] <;> assumption
  subst hHH
  refine (hbest (1 / 10 ^ 5) ⟨le_rfl, by norm_num⟩).trans ?_
  unfold leading at hsmall
  generalize direction e A B C X = H at *
  rw [quartic_is_residual A B C X H hX hB hC hHs hH]
  have hV := v_symm hHs hB
  rw [trace_sq_symm _ hV, trace_sq_symm _ (residual_symm A B C X hX hB hC), trace_mul_symm _ _ hV]
  have hcs := cauchy (residual A B C X) (H * B * H)
  generalize (∑ i, ∑ j, residual A B C X i j * (H * B * H) i j) = b at *
  have ha := sqNorm_nonneg (residual A B C X)
  generalize sqNorm (residual A B C X) = a at *
  generalize sqNorm (H * B * H) = c at *
  have hb : -b ≤ 10 ^ 5 * a := by
    refine le_trans (neg_le_abs b) (abs_le_of_sq_le_sq ?_ (by positivity))
    calc b ^ 2 ≤ a * c := hcs
      _ ≤ a * (10 ^ 10 * a) := mul_le_mul_of_nonneg_left hsmall ha
      _ = (10 ^ 5 * a) ^ 2 := by ring
  nlinarith

/-- Iterates of the Newton iteration -/
inductive Reach (A B C X0 : Matrix (Fin n) (Fin n) ℝ) : Matrix (Fin n) (Fin n) ℝ → Prop
  | start : Reach A B C X0 X0
  | step {X X' : Matrix (Fin n) (Fin n) ℝ} {err : ℝ} : Reach A B C X0 X → newtonStep e A B C X = some (X', err) → Reach A B C X0 X'

theorem Reach.tail {A B C X0 X1 X : Matrix (Fin n) (Fin n) ℝ} {err : ℝ} (h : newtonStep e A B C X0 = some (X1, err))
    (hr : Reach e A B C X1 X) : Reach e A B C X0 X := by
  induction hr with
  | start => exact .step .start h
  | step _ h2 ih => exact .step ih h2

/-- `k` Newton steps lead from the first to the second matrix. -/
def Steps (A B C : Matrix (Fin n) (Fin n) ℝ) : ℕ → Matrix (Fin n) (Fin n) ℝ → Matrix (Fin n) (Fin n) ℝ → Prop
  | 0, X, Y => X = Y
  | k + 1, X, Y => ∃ X' err, newtonStep e A B C X = some (X', err) ∧ Steps A B C k X' Y

/-- C50. The Newton iteration from a symmetric guess, when the Lyapunov equations on the way are solvable with real eigenvalues and the second-order
terms are not 1e10 times the residuals: the result is symmetric, its residual is not larger than that of the guess, and either all the
allowed steps were taken or the residual is at most 1e-5. -/
theorem newton_result (hs : SolveOk e) (hroots : RootsOk e) (A B C : Matrix (Fin n) (Fin n) ℝ) (hB : Bᵀ = B) (hC : Cᵀ = C) :
    ∀ (k : ℕ) (X0 X : Matrix (Fin n) (Fin n) ℝ), X0ᵀ = X0 →
      (∀ Y, Reach e A B C X0 Y → GoodAt e A B Y ∧ leading e A B C Y ≤ 10 ^ 10 * sqNorm (residual A B C Y)) →
      newton e k A B C X0 = some X →
      Xᵀ = X ∧ sqNorm (residual A B C X) ≤ sqNorm (residual A B C X0)
        ∧ (Steps e A B C k X0 X ∨ Real.sqrt (sqNorm (residual A B C X)) ≤ 1 / 10 ^ 5)
  | 0, X0, X, hX0, hg, h => by
    simp only [newton, newtonLoop, Option.some.injEq] at h
    subst h
    exact ⟨hX0, le_rfl, Or.inl rfl⟩
  | k + 1, X0, X, hX0, hg, h => by
    unfold newton at h
    rw [newtonLoop] at h
    rcases hst : newtonStep e A B C X0 with _ | ⟨X1, err⟩
    · rw [hst] at h; simp at h
    · rw [hst] at h
      simp only at h
      obtain ⟨g1, g2⟩ := hg X0 .start
      obtain ⟨hsym, herr, -⟩ := newtonStep_best e hs hroots A B C X0 g1 hX0 hB hC X1 err hst
      have hdec := newtonStep_decreases e hs hroots A B C X0 g1 hX0 hB hC X1 err hst g2
      by_cases htol : 1 / 10 ^ 5 < err
      · rw [if_pos htol] at h
        obtain ⟨h1, h2, h3⟩ := newton_result hs hroots A B C hB hC k X1 X hsym (fun Y hY => hg Y (hY.tail e hst)) h
        exact ⟨h1, h2.trans hdec, h3.imp_left fun h => ⟨X1, err, hst, h⟩⟩
      · rw [if_neg htol, Option.some.injEq] at h
        subst h
        refine ⟨hsym, hdec, Or.inr ?_⟩
        exact (Real.sqrt_le_sqrt hdec).trans (herr ▸ not_lt.1 htol)

end Newton

end PolyMPC.Lqr
