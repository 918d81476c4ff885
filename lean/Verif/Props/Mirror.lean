import Verif.Model.Mirror
import Verif.Props.Gershgorin
import Mathlib.LinearAlgebra.Matrix.NonsingularInverse
import Mathlib.Analysis.Matrix.Spectrum

/-!
# Eigenvalue mirroring of the Hessian (C220)
-/

set_option linter.unusedSectionVars false

namespace PolyMPC.Mirror
open Matrix QuasiNewton

variable {n : ℕ} [NeZero n]

/-- The columns of `V` are `n` independent eigenvectors of `H`, of length one, for the eigenvalues `vals` (Eigen's documentation of `EigenSolver`). -/
structure Decomposes (H : Matrix (Fin n) (Fin n) ℝ) (e : Eig n) : Prop where
  eig : ∀ j, H *ᵥ (fun i => e.vecs i j) = e.vals j • fun i => e.vecs i j
  unit : ∀ j, (fun i => e.vecs i j) ⬝ᵥ (fun i => e.vecs i j) = 1
  indep : IsUnit e.vecs.det

theorem minCoeff_le_iff (v : Fin n → ℝ) {a : ℝ} : minCoeff v ≤ a ↔ ∃ i, v i ≤ a := by
  unfold minCoeff
  rw [Finset.inf'_le_iff]
  simp

theorem mirrorVal_pos (a : ℝ) : 0 < mirrorVal a := by
  unfold mirrorVal
  split_ifs with h <;> linarith

theorem abs_le_mirrorVal (a : ℝ) : |a| ≤ mirrorVal a := by
  unfold mirrorVal
  split_ifs with h
  · rw [abs_of_nonpos h]; linarith
  · rw [abs_of_pos (by linarith)]

/-- `V D Vᵀ` as a sum of squares. -/
theorem form_eq (V : Matrix (Fin n) (Fin n) ℝ) (D : Fin n → ℝ) (x : Fin n → ℝ) :
    x ⬝ᵥ (V * diagonal D * Vᵀ) *ᵥ x = ∑ j, D j * (Vᵀ *ᵥ x) j ^ 2 := by
  rw [← mulVec_mulVec, ← mulVec_mulVec, dotProduct_mulVec, ← mulVec_transpose]
  unfold dotProduct
  refine Finset.sum_congr rfl fun j _ => ?_
  rw [mulVec_diagonal]
  ring

theorem congruence_spd {V : Matrix (Fin n) (Fin n) ℝ} (hV : IsUnit V.det) {D : Fin n → ℝ} (hD : ∀ j, 0 < D j) : SPD (V * diagonal D * Vᵀ) := by
  refine ⟨by rw [transpose_mul, transpose_mul, transpose_transpose, diagonal_transpose, Matrix.mul_assoc], fun x hx => ?_⟩
  rw [form_eq]
  have hne : Vᵀ *ᵥ x ≠ 0 := by
    intro h
    apply hx
    have hT : IsUnit Vᵀ.det := by rwa [det_transpose]
    rw [← one_mulVec x, ← nonsing_inv_mul _ hT, ← mulVec_mulVec, h, mulVec_zero]
  obtain ⟨j, hj⟩ := Function.ne_iff.mp hne
  exact Finset.sum_pos' (fun i _ => mul_nonneg (hD i).le (sq_nonneg _)) ⟨j, Finset.mem_univ j, mul_pos (hD j) (pow_pos_of_ne hj)⟩
where
  pow_pos_of_ne {a : ℝ} (h : a ≠ 0) : 0 < a ^ 2 := by positivity

/-- **C220.** If an eigenvalue was found that is not positive, the result is symmetric and positive definite for any independent vectors, correct eigenvectors or not. -/
theorem mirrored_spd {es : Matrix (Fin n) (Fin n) ℝ → Eig n} {H : Matrix (Fin n) (Fin n) ℝ} (hV : IsUnit (es H).vecs.det) {j : Fin n} (hj : (es H).vals j ≤ 0) :
    SPD (mirror es H) := by
  unfold mirror
  dsimp only
  rw [if_pos ((minCoeff_le_iff _).mpr ⟨j, hj⟩)]
  exact congruence_spd hV fun j => mirrorVal_pos _

theorem eig_matrix {H : Matrix (Fin n) (Fin n) ℝ} {e : Eig n} (h : Decomposes H e) : H * e.vecs = e.vecs * diagonal e.vals := by
  ext i j
  rw [mul_diagonal]
  have := congrFun (h.eig j) i
  simp only [Pi.smul_apply, smul_eq_mul] at this
  rw [mul_comm, ← this]; rfl

/-- Eigenvectors of a symmetric matrix for different eigenvalues are orthogonal. -/
theorem orthogonal {H : Matrix (Fin n) (Fin n) ℝ} (hs : Hᵀ = H) {e : Eig n} (h : Decomposes H e) {i j : Fin n} (hij : e.vals i ≠ e.vals j) :
    (fun r => e.vecs r i) ⬝ᵥ (fun r => e.vecs r j) = 0 := by
  have h1 : (fun r => e.vecs r i) ⬝ᵥ H *ᵥ (fun r => e.vecs r j) = e.vals j * ((fun r => e.vecs r i) ⬝ᵥ (fun r => e.vecs r j)) := by
    rw [h.eig j, dotProduct_smul, smul_eq_mul]
  have h2 : (fun r => e.vecs r i) ⬝ᵥ H *ᵥ (fun r => e.vecs r j) = e.vals i * ((fun r => e.vecs r i) ⬝ᵥ (fun r => e.vecs r j)) := by
    rw [dotProduct_mulVec, ← mulVec_transpose, hs, h.eig i, smul_dotProduct, smul_eq_mul]
  have h3 : (e.vals i - e.vals j) * ((fun r => e.vecs r i) ⬝ᵥ (fun r => e.vecs r j)) = 0 := by rw [sub_mul, ← h1, ← h2, sub_self]
  exact (mul_eq_zero.mp h3).resolve_left (sub_ne_zero.mpr hij)

/-- A symmetric matrix whose eigenvalues are all positive is positive definite, also if eigenvectors for a repeated eigenvalue are not orthogonal. -/
theorem spd_of_positive {H : Matrix (Fin n) (Fin n) ℝ} (hs : Hᵀ = H) {e : Eig n} (h : Decomposes H e) (hp : ∀ j, 0 < e.vals j) : SPD H := by
  refine ⟨hs, fun x hx => ?_⟩
  obtain ⟨c, hc⟩ : ∃ c, c = e.vecs⁻¹ *ᵥ x := ⟨_, rfl⟩
  have hxc : x = e.vecs *ᵥ c := by rw [hc, mulVec_mulVec, mul_nonsing_inv _ h.indep, one_mulVec]
  have hc0 : c ≠ 0 := by
    rintro rfl
    exact hx (by rw [hxc, mulVec_zero])
  -- the form is a sum of squares of `V (√D c)`
  have key : x ⬝ᵥ H *ᵥ x = (e.vecs *ᵥ fun j => √(e.vals j) * c j) ⬝ᵥ (e.vecs *ᵥ fun j => √(e.vals j) * c j) := by
    have lhs : x ⬝ᵥ H *ᵥ x = ∑ i, ∑ j, c i * (e.vals j * c j) * ((fun r => e.vecs r i) ⬝ᵥ (fun r => e.vecs r j)) := by
      have e1 : H *ᵥ x = e.vecs *ᵥ fun j => e.vals j * c j := by
        rw [hxc, mulVec_mulVec, eig_matrix h, ← mulVec_mulVec]
        congr 1
        funext j
        rw [mulVec_diagonal]
      rw [e1, hxc]
      exact gram _ _ _
    have rhs : (e.vecs *ᵥ fun j => √(e.vals j) * c j) ⬝ᵥ (e.vecs *ᵥ fun j => √(e.vals j) * c j)
        = ∑ i, ∑ j, (√(e.vals i) * c i) * (√(e.vals j) * c j) * ((fun r => e.vecs r i) ⬝ᵥ (fun r => e.vecs r j)) := gram _ _ _
    rw [lhs, rhs]
    refine Finset.sum_congr rfl fun i _ => Finset.sum_congr rfl fun j _ => ?_
    by_cases hij : e.vals i = e.vals j
    · rw [hij]
      have := Real.mul_self_sqrt (hp j).le
      calc _ = c i * (√(e.vals j) * √(e.vals j) * c j) * ((fun r => e.vecs r i) ⬝ᵥ (fun r => e.vecs r j)) := by rw [this]
        _ = _ := by ring
    · rw [orthogonal hs h hij, mul_zero, mul_zero]
  rw [key]
  have hd : (fun j => √(e.vals j) * c j) ≠ 0 := by
    obtain ⟨j, hj⟩ := Function.ne_iff.mp hc0
    exact Function.ne_iff.mpr ⟨j, mul_ne_zero (Real.sqrt_pos.mpr (hp j)).ne' hj⟩
  have hV : (e.vecs *ᵥ fun j => √(e.vals j) * c j) ≠ 0 := by
    intro h0
    apply hd
    rw [← one_mulVec (fun j => √(e.vals j) * c j), ← nonsing_inv_mul _ h.indep, ← mulVec_mulVec, h0, mulVec_zero]
  have := (spd_one (K := ℝ) (n := n)).2 _ hV
  rwa [one_mulVec] at this
where
  gram (V : Matrix (Fin n) (Fin n) ℝ) (a b : Fin n → ℝ) :
      (V *ᵥ a) ⬝ᵥ (V *ᵥ b) = ∑ i, ∑ j, a i * b j * ((fun r => V r i) ⬝ᵥ (fun r => V r j)) := by
    unfold mulVec dotProduct
    simp only [Finset.sum_mul_sum]
    rw [Finset.sum_comm]
    refine Finset.sum_congr rfl fun i _ => ?_
    rw [Finset.sum_comm]
    refine Finset.sum_congr rfl fun j _ => ?_
    rw [Finset.mul_sum]
    exact Finset.sum_congr rfl fun r _ => by ring

/-- **C220.** The regularised matrix of a symmetric one is symmetric and positive definite, for every correct decomposition; a positive definite matrix is returned unchanged. -/
theorem regularised_spd {es : Matrix (Fin n) (Fin n) ℝ → Eig n} {H : Matrix (Fin n) (Fin n) ℝ} (hs : Hᵀ = H) (h : Decomposes H (es H)) :
    SPD (mirror es H) ∧ (SPD H → mirror es H = H) := by
  by_cases hm : ∃ j, (es H).vals j ≤ 0
  · obtain ⟨j, hj⟩ := hm
    refine ⟨mirrored_spd h.indep hj, fun hH => ?_⟩
    exfalso
    have hne : (fun i => (es H).vecs i j) ≠ 0 := by
      intro h0
      have := h.unit j
      rw [h0] at this
      simp at this
    have h1 := hH.2 _ hne
    rw [h.eig j, dotProduct_smul, h.unit j, smul_eq_mul, mul_one] at h1
    linarith
  · have hu : mirror es H = H := by
      unfold mirror
      dsimp only
      rw [if_neg (by rw [minCoeff_le_iff]; exact hm)]
    rw [hu]
    push Not at hm
    exact ⟨spd_of_positive hs h hm, fun _ => rfl⟩

/-- **C220.** If the eigenvectors are orthonormal the result has the same eigenvectors; positive eigenvalues are kept and the others are mirrored and increased by `0.1`. The result bounds the absolute value of
the quadratic form. -/
theorem mirrored_eigenvalues {es : Matrix (Fin n) (Fin n) ℝ → Eig n} {H : Matrix (Fin n) (Fin n) ℝ} (h : Decomposes H (es H)) (ho : (es H).vecsᵀ * (es H).vecs = 1) :
    (∀ j, mirror es H *ᵥ (fun i => (es H).vecs i j) = (if 0 < (es H).vals j then (es H).vals j else |(es H).vals j| + 1 / 10) • fun i => (es H).vecs i j) ∧
    ∀ x, |x ⬝ᵥ H *ᵥ x| ≤ x ⬝ᵥ mirror es H *ᵥ x := by
  have ho' : (es H).vecs * (es H).vecsᵀ = 1 := mul_eq_one_comm.mp ho
  have hval (a : ℝ) : (if 0 < a then a else |a| + 1 / 10) = mirrorVal a := by
    unfold mirrorVal
    by_cases ha : 0 < a
    · rw [if_pos ha, if_neg (not_le.mpr ha)]
    · rw [if_neg ha, if_pos (not_lt.mp ha), abs_of_nonpos (not_lt.mp ha)]; ring
  have hm : mirror es H = (es H).vecs * diagonal (fun i => mirrorVal ((es H).vals i)) * (es H).vecsᵀ := by
    unfold mirror
    dsimp only
    by_cases hc : minCoeff (es H).vals ≤ 0
    · rw [if_pos hc]
    · rw [if_neg hc]
      rw [minCoeff_le_iff] at hc
      push Not at hc
      have : (fun i => mirrorVal ((es H).vals i)) = (es H).vals := funext fun i => by rw [← hval, if_pos (hc i)]
      rw [this, ← eig_matrix h, Matrix.mul_assoc, ho', Matrix.mul_one]
  have hH : H = (es H).vecs * diagonal (es H).vals * (es H).vecsᵀ := by rw [← eig_matrix h, Matrix.mul_assoc, ho', Matrix.mul_one]
  refine ⟨fun j => ?_, fun x => ?_⟩
  · rw [hval]
    have e : mirror es H * (es H).vecs = (es H).vecs * diagonal (fun i => mirrorVal ((es H).vals i)) := by
      rw [hm, Matrix.mul_assoc, ho, Matrix.mul_one]
    funext i
    have := congrFun (congrFun e i) j
    rw [mul_diagonal, mul_comm] at this
    rw [Pi.smul_apply, smul_eq_mul, ← this]; rfl
  · rw [hm]
    conv_lhs => rw [hH]
    rw [form_eq, form_eq]
    refine (Finset.abs_sum_le_sum_abs _ _).trans (Finset.sum_le_sum fun j _ => ?_)
    rw [abs_mul, abs_pow, sq_abs]
    exact mul_le_mul_of_nonneg_right (abs_le_mirrorVal _) (sq_nonneg _)

/-- **C220.** If the eigenvalues of a symmetric matrix are distinct, every correct decomposition has orthonormal eigenvectors. -/
theorem orthonormal_of_distinct {H : Matrix (Fin n) (Fin n) ℝ} (hs : Hᵀ = H) {e : Eig n} (h : Decomposes H e) (hd : Function.Injective e.vals) : e.vecsᵀ * e.vecs = 1 := by
  ext i j
  rw [mul_apply']
  by_cases hij : i = j
  · rw [hij, one_apply_eq]; exact h.unit j
  · rw [one_apply_ne hij]; exact orthogonal hs h fun hv => hij (hd hv)

/-- A correct decomposition of `diag(1, 1, -1)` with eigenvectors for the eigenvalue 1 that are not orthogonal. -/
noncomputable def skewEig : Eig 3 where
  vals := ![1, 1, -1]
  vecs := !![1, 3 / 5, 0; 0, 4 / 5, 0; 0, 0, 1]

theorem skewEig_decomposes : Decomposes (diagonal ![1, 1, -1]) skewEig where
  eig j := by
    funext i
    rw [mulVec_diagonal]
    fin_cases i <;> fin_cases j <;> simp [skewEig]
  unit j := by
    fin_cases j <;> simp [skewEig, dotProduct, Fin.sum_univ_three] <;> norm_num
  indep := by
    rw [isUnit_iff_ne_zero]
    simp [skewEig, det_fin_three]

/-- **C220.** With a repeated eigenvalue the transpose of the eigenvectors need not be their inverse: there is a matrix and a correct decomposition of it for which the result is positive definite, but
differs from the matrix in a direction in which the matrix is an identity. -/
theorem mirror_changes_positive_part : ∃ (H : Matrix (Fin 3) (Fin 3) ℝ) (e : Eig 3), Hᵀ = H ∧ Decomposes H e ∧
    H *ᵥ ![1, 0, 0] = ![1, 0, 0] ∧ SPD (mirror (fun _ => e) H) ∧ mirror (fun _ => e) H *ᵥ ![1, 0, 0] = ![34 / 25, 12 / 25, 0] := by
  refine ⟨diagonal ![1, 1, -1], skewEig, diagonal_transpose _, skewEig_decomposes, ?_, ?_, ?_⟩
  · funext i
    rw [mulVec_diagonal]
    fin_cases i <;> simp
  · exact (regularised_spd (es := fun _ => skewEig) (diagonal_transpose _) skewEig_decomposes).1
  · have hm : mirror (fun _ => skewEig) (diagonal ![1, 1, -1]) = skewEig.vecs * diagonal (fun i => mirrorVal (skewEig.vals i)) * skewEig.vecsᵀ := by
      unfold mirror
      dsimp only
      rw [if_pos ((minCoeff_le_iff _).mpr ⟨2, by simp [skewEig]⟩)]
    rw [hm, ← mulVec_mulVec, ← mulVec_mulVec]
    funext i
    fin_cases i <;> simp [skewEig, mulVec, dotProduct, Fin.sum_univ_three, mirrorVal, diagonal, not_le.mpr] <;> norm_num

/-- **C220.** Positive eigenvalues are kept however small they are: nothing bounds the condition of the result. -/
theorem small_eigenvalues_kept {delta : ℝ} (hd : 0 < delta) : ∃ (H : Matrix (Fin 2) (Fin 2) ℝ) (e : Eig 2), Hᵀ = H ∧ Decomposes H e ∧
    (∃ x, x ⬝ᵥ H *ᵥ x < 0) ∧ mirror (fun _ => e) H *ᵥ ![1, 0] = ![delta, 0] ∧ mirror (fun _ => e) H *ᵥ ![0, 1] = ![0, 11 / 10] := by
  obtain ⟨e, he⟩ : ∃ e : Eig 2, e = ⟨![delta, -1], !![1, 0; 0, 1]⟩ := ⟨_, rfl⟩
  have v0 : e.vals 0 = delta := by rw [he]; rfl
  have v1 : e.vals 1 = -1 := by rw [he]; rfl
  have c0 : (fun i => e.vecs i 0) = ![1, 0] := by rw [he]; funext i; fin_cases i <;> rfl
  have c1 : (fun i => e.vecs i 1) = ![0, 1] := by rw [he]; funext i; fin_cases i <;> rfl
  have hdec : Decomposes (diagonal ![delta, -1]) e := by
    refine ⟨fun j => ?_, fun j => ?_, ?_⟩
    · fin_cases j
      · change _ *ᵥ (fun i => e.vecs i 0) = e.vals 0 • fun i => e.vecs i 0
        rw [c0, v0]
        funext i
        rw [mulVec_diagonal]
        fin_cases i <;> simp
      · change _ *ᵥ (fun i => e.vecs i 1) = e.vals 1 • fun i => e.vecs i 1
        rw [c1, v1]
        funext i
        rw [mulVec_diagonal]
        fin_cases i <;> simp
    · fin_cases j
      · change (fun i => e.vecs i 0) ⬝ᵥ (fun i => e.vecs i 0) = 1
        rw [c0]; simp
      · change (fun i => e.vecs i 1) ⬝ᵥ (fun i => e.vecs i 1) = 1
        rw [c1]; simp
    · rw [he, det_fin_two]; simp
  have ho : e.vecsᵀ * e.vecs = 1 := by
    rw [he]; ext i j; fin_cases i <;> fin_cases j <;> simp [mul_apply, Fin.sum_univ_two]
  have hk := mirrored_eigenvalues (es := fun _ => e) hdec ho
  refine ⟨diagonal ![delta, -1], e, diagonal_transpose _, hdec, ⟨![0, 1], ?_⟩, ?_, ?_⟩
  · simp [dotProduct, mulVec_diagonal, Fin.sum_univ_two]
  · have := hk.1 0
    rw [c0, v0, if_pos hd] at this
    rw [this]
    funext i; fin_cases i <;> simp
  · have := hk.1 1
    rw [c1, v1, if_neg (by norm_num)] at this
    rw [this]
    funext i; fin_cases i <;> simp <;> norm_num

/-! ## SQP with this regularisation -/

variable {me mi : ℕ} {prec : Sqp.Precond ℝ n (me + mi)} {qps : Sqp.QPSolver ℝ n (me + mi)}

/-- **C220.** If the Hessian of the Lagrangian at the start is symmetric and its decomposition is correct, all QPs are strictly convex, and the solve never fails. -/
theorem mirror_convex (hl : Sqp.LawfulPrecond prec) (hp : ∀ m qp, ∃ r, prec.compute m qp = some r) {es : Matrix (Fin n) (Fin n) ℝ → Eig n} {eps : ℝ} (he : 0 < eps) {cfg : Sqp.Settings ℝ}
    {prob : Sqp.Problem ℝ n me mi} {bd : Sqp.Bounds ℝ n mi} {st : Sqp.State ℝ n me mi prec qps} (hs : (prob.lagHess st.x st.lam)ᵀ = prob.lagHess st.x st.lam)
    (hd : Decomposes (prob.lagHess st.x st.lam) (es (prob.lagHess st.x st.lam))) :
    (∀ v, Sqp.Visited (mirrorEnv prec qps es eps cfg prob bd) st v → SPD v.qp.H) ∧ ∃ r, Sqp.solve (mirrorEnv prec qps es eps cfg prob bd) st = some r ∧ SPD r.qp.H := by
  have h0 : SPD ((mirrorEnv prec qps es eps cfg prob bd).regularise ((mirrorEnv prec qps es eps cfg prob bd).prob.lagHess st.x st.lam)) := (regularised_spd hs hd).1
  have hk : Sqp.KeepsSPD (mirrorEnv prec qps es eps cfg prob bd) := by
    intro H s y H' hH hu
    obtain ⟨B, h1, h2⟩ := bfgs_keeps_spd he hH s y
    have : some B = some H' := h1.symm.trans hu
    rw [← Option.some.inj this]
    exact h2
  have hv : ∀ v, Sqp.Visited (mirrorEnv prec qps es eps cfg prob bd) st v → SPD v.qp.H := fun v h => Sqp.visited_spd hl hk h0 h
  refine ⟨hv, ?_⟩
  cases hr : Sqp.solve (mirrorEnv prec qps es eps cfg prob bd) st with
  | none =>
    have hz : ∀ H s y, SPD H → ((mirrorEnv prec qps es eps cfg prob bd).hessUpdate H s y = none ↔ False) := by
      intro H s y hH
      obtain ⟨B, h1, -⟩ := bfgs_keeps_spd he hH s y
      have h1' : (mirrorEnv prec qps es eps cfg prob bd).hessUpdate H s y = some B := h1
      rw [h1']
      simp
    obtain ⟨-, -, -, -, h⟩ := (Sqp.solve_none_iff_of (Z := fun _ => False) hl hp hk hz h0).mp hr
    exact h.elim
  | some r =>
    refine ⟨r, rfl, ?_⟩
    obtain ⟨v, hvis, ⟨-, h⟩ | ⟨-, -, h⟩⟩ := Sqp.solve_cases hr
    · rw [h]; exact hv v hvis
    · rw [h]; exact hv v hvis

/-! ## Non-vacuity -/

/-- In every dimension there is a decomposition that is correct and orthonormal for all symmetric matrices. -/
theorem decomposition_exists (n : ℕ) [NeZero n] : ∃ es : Matrix (Fin n) (Fin n) ℝ → Eig n, ∀ H, Hᵀ = H → Decomposes H (es H) ∧ (es H).vecsᵀ * (es H).vecs = 1 := by
  have key : ∀ H : Matrix (Fin n) (Fin n) ℝ, ∃ e : Eig n, Hᵀ = H → Decomposes H e ∧ e.vecsᵀ * e.vecs = 1 := by
    intro H
    by_cases hs : Hᵀ = H
    · have hA : H.IsHermitian := by rw [IsHermitian, conjTranspose_eq_transpose_of_trivial]; exact hs
      have ho : (hA.eigenvectorUnitary : Matrix (Fin n) (Fin n) ℝ)ᵀ * (hA.eigenvectorUnitary : Matrix (Fin n) (Fin n) ℝ) = 1 := by
        have := (Matrix.mem_unitaryGroup_iff'.mp hA.eigenvectorUnitary.2)
        rwa [star_eq_conjTranspose, conjTranspose_eq_transpose_of_trivial] at this
      refine ⟨⟨hA.eigenvalues, hA.eigenvectorUnitary⟩, fun _ => ⟨⟨fun j => ?_, fun j => ?_, ?_⟩, ho⟩⟩
      · have := hA.mulVec_eigenvectorBasis j
        rw [← hA.eigenvectorUnitary_transpose_apply j] at this
        exact this
      · have := congrFun (congrFun ho j) j
        rw [mul_apply', one_apply_eq] at this
        exact this
      · rw [isUnit_iff_ne_zero]
        intro h0
        have := congrArg det ho
        rw [det_mul, det_one] at this
        change _ * det (hA.eigenvectorUnitary : Matrix (Fin n) (Fin n) ℝ) = 1 at this
        simp only at h0
        rw [h0, mul_zero] at this
        exact zero_ne_one this
    · exact ⟨⟨0, 0⟩, fun h => absurd h hs⟩
  choose es hes using key
  exact ⟨es, hes⟩

/-- A case with that decomposition: for problems with the indefinite Hessian `[1 2; 2 1]` every solve returns and its Hessian is positive definite. -/
example (me mi : ℕ) (qps : Sqp.QPSolver ℝ 2 (me + mi)) (cfg : Sqp.Settings ℝ) (prob : Sqp.Problem ℝ 2 me mi) (bd : Sqp.Bounds ℝ 2 mi)
    (hp : ∀ x lam, prob.lagHess x lam = !![1, 2; 2, 1]) (st : Sqp.State ℝ 2 me mi (Sqp.identityPrecond ℝ 2 (me + mi)) qps) :
    ∃ es, ∃ r, Sqp.solve (mirrorEnv (Sqp.identityPrecond ℝ 2 (me + mi)) qps es (1 / 2 ^ 52) cfg prob bd) st = some r ∧ SPD r.qp.H := by
  obtain ⟨es, hes⟩ := decomposition_exists 2
  have hs : (!![1, 2; 2, 1] : Matrix (Fin 2) (Fin 2) ℝ)ᵀ = !![1, 2; 2, 1] := by ext i j; fin_cases i <;> fin_cases j <;> rfl
  exact ⟨es, (mirror_convex (Sqp.identity_lawful _) (fun m qp => ⟨_, rfl⟩) (by norm_num) (by rw [hp]; exact hs) (by rw [hp]; exact (hes _ hs).1)).2⟩

end PolyMPC.Mirror
