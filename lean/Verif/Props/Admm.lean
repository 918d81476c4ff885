import Verif.Lemmas.Admm

/-!
# Properties C01, C02, C03, C05, C08, C09, C10: the ADMM run

All theorems hold for every dimension, every QP, every settings object, every initial guess, every previous state of the
solver object, every linear solver behaviour `lin` and every square root `sq`, unless stated otherwise.
-/

set_option linter.unusedSectionVars false

namespace PolyMPC.Admm
open Matrix PolyMPC.Spec PolyMPC.QPBase

variable {K : Type*} [Field K] [LinearOrder K] [IsStrictOrderedRing K] {N M : ℕ}
variable {both : Bool} {lin : KktMat K N M → (KktIdx N M → K) → (KktIdx N M → K)} {sq : K → K} {cfg : Settings K}
  {qp : QP K N M} {xg : Fin N → K} {yg : Fin M ⊕ Fin N → K} {old : State K N M}

/-- Relative scale used by the primal test: `max(‖(A x, x)‖, ‖z‖)`. -/
def primalScale (qp : QP K N M) (x : Fin N → K) (z : Fin M ⊕ Fin N → K) : K :=
  max (infNorm (qp.rows x)) (infNorm z)

/-- Relative scale used by the dual test: `max(‖H x‖, ‖Aᵀ y_A‖, ‖h‖, ‖y_box‖)`. -/
def dualScale (qp : QP K N M) (x : Fin N → K) (y : Fin M ⊕ Fin N → K) : K :=
  max (infNorm (qp.H *ᵥ x)) (max (infNorm (qp.Aᵀ *ᵥ QP.yA y)) (max (infNorm qp.h) (infNorm (QP.yBox y))))

/-! ## C01 -/

theorem residualsUpdate_resPrim (st : State K N M) :
    (residualsUpdate qp st).info.resPrim = infNorm (qp.rows st.x - st.z) := by
  have : qp.rows st.x - st.z = Sum.elim (qp.A *ᵥ st.x - headM st.z) (st.x - tailN st.z) := by
    funext i; rcases i with i | i <;> rfl
  rw [this, infNorm_sumElim]
  rfl

theorem residualsUpdate_resDual (st : State K N M) :
    (residualsUpdate qp st).info.resDual = infNorm (qp.lagrangianGradient st.x st.y) := rfl

theorem residualsUpdate_maxAxZ (st : State K N M) :
    (residualsUpdate qp st).maxAxZ = primalScale qp st.x st.z := by
  unfold primalScale QP.rows
  rw [infNorm_sumElim]
  rfl

theorem residualsUpdate_maxHxATyh (st : State K N M) :
    (residualsUpdate qp st).maxHxATyh = dualScale qp st.x st.y := by
  unfold dualScale
  rw [Matrix.mulVec_transpose]
  rfl

/-- The termination test, in terms of the problem data. -/
theorem terminationCriteria_iff (st : State K N M) :
    terminationCriteria cfg (residualsUpdate qp st) = true ↔
      infNorm (qp.rows st.x - st.z) ≤ cfg.epsAbs + cfg.epsRel * primalScale qp st.x st.z ∧
      infNorm (qp.lagrangianGradient st.x st.y) ≤ cfg.epsAbs + cfg.epsRel * dualScale qp st.x st.y := by
  unfold terminationCriteria epsPrim epsDual
  rw [residualsUpdate_resPrim, residualsUpdate_resDual, residualsUpdate_maxAxZ, residualsUpdate_maxHxATyh]
  simp

/-- C01. If `solve` reports SOLVED, both residual tests hold at the exposed primal vector `x`, dual vector `y` and
auxiliary vector `z`, and the reported residuals are the true residual norms. -/
theorem solved_residuals {st : State K N M} (h : solve both lin sq cfg qp xg yg old = some st)
    (hs : st.info.status = .SOLVED) :
    infNorm (qp.rows st.x - st.z) ≤ cfg.epsAbs + cfg.epsRel * primalScale qp st.x st.z ∧
    infNorm (qp.lagrangianGradient st.x st.y) ≤ cfg.epsAbs + cfg.epsRel * dualScale qp st.x st.y ∧
    st.info.resPrim = infNorm (qp.rows st.x - st.z) ∧
    st.info.resDual = infNorm (qp.lagrangianGradient st.x st.y) := by
  rcases solve_cases h with ⟨j, s, s', hr, hb, hj, rfl⟩ | ⟨s, hr, rfl⟩
  · obtain ⟨_, rfl, ht⟩ := brk_spec hb
    have := (terminationCriteria_iff _).mp ht
    exact ⟨this.1, this.2, residualsUpdate_resPrim _, residualsUpdate_resDual _⟩
  · simp at hs

/-! ## C02 -/

/-- C02. After every pass of the loop the auxiliary vector lies within the bounds. -/
theorem z_within_bounds (hc : qp.Consistent) {k : ℕ} {st : State K N M}
    (h : AfterPass both lin sq cfg qp xg yg old k st) (i : Fin M ⊕ Fin N) :
    qp.lower i ≤ st.z i ∧ st.z i ≤ qp.upper i := by
  obtain ⟨k', st', rfl, hr, hb⟩ := h
  rw [(body_sameIter hb).2.2.1, admmUpdate_z]
  exact clip_mem (hc i)

/-- The state returned with SOLVED is, up to the reported iteration number, the state after a pass of the loop. -/
theorem solved_afterPass {st : State K N M} (h : solve both lin sq cfg qp xg yg old = some st)
    (hs : st.info.status = .SOLVED) : ∃ k s, AfterPass both lin sq cfg qp xg yg old k s ∧ s.x = st.x ∧ s.y = st.y ∧
      s.z = st.z := by
  rcases solve_cases h with ⟨j, s, s', hr, hb, hj, rfl⟩ | ⟨s, hr, rfl⟩
  · exact ⟨j + 1, s', ⟨j, s, rfl, hr, Or.inr hb⟩, rfl, rfl, rfl⟩
  · simp at hs

/-- C02. At SOLVED every constraint row and every variable violates its bounds by at most the primal tolerance. -/
theorem solved_violation (hc : qp.Consistent) {st : State K N M} (h : solve both lin sq cfg qp xg yg old = some st)
    (hs : st.info.status = .SOLVED) (i : Fin M ⊕ Fin N) :
    qp.lower i - (cfg.epsAbs + cfg.epsRel * primalScale qp st.x st.z) ≤ qp.rows st.x i ∧
    qp.rows st.x i ≤ qp.upper i + (cfg.epsAbs + cfg.epsRel * primalScale qp st.x st.z) := by
  obtain ⟨k, s, ha, _, _, hz⟩ := solved_afterPass h hs
  have hb := z_within_bounds hc ha i
  rw [hz] at hb
  have h1 := (solved_residuals h hs).1
  have h2 := (le_infNorm (qp.rows st.x - st.z) i).trans h1
  rw [Pi.sub_apply, abs_le] at h2
  constructor <;> linarith [h2.1, h2.2, hb.1, hb.2]

/-! ## C03 -/

/-- C03. After every pass of the loop the dual vector is in the normal cone of the bounds at `z`: it is positive only
where `z` is at its upper bound and negative only where `z` is at its lower bound. -/
theorem dual_in_normal_cone (hc : qp.Consistent) (hrho : 0 < cfg.rho) {k : ℕ} {st : State K N M}
    (h : AfterPass both lin sq cfg qp xg yg old k st) : QP.InNormalCone qp.lower qp.upper st.z st.y := by
  intro i
  refine ⟨z_within_bounds hc h i, ?_⟩
  obtain ⟨k', st', rfl, hr, hb⟩ := h
  have hpos := (stepInv_running hr).rhoVec_pos (rho_pos_running hrho hr) i
  have hinv : st'.rhoVec i * st'.rhoInvVec i = 1 := by
    rw [(stepInv_running hr).ri]; exact mul_inv_cancel₀ hpos.ne'
  have hs := body_sameIter hb
  rw [hs.2.1, hs.2.2.1, admmUpdate_y _ _ hinv, admmUpdate_z]
  constructor
  · intro hy
    have := (mul_pos_iff_of_pos_left hpos).mp hy
    exact clip_of_lt (by linarith)
  · intro hy
    have := (pos_iff_neg_of_mul_neg hy).mp hpos
    exact clip_of_gt (hc i) (by linarith)

/-- C03 at SOLVED. -/
theorem solved_dual_in_normal_cone (hc : qp.Consistent) (hrho : 0 < cfg.rho) {st : State K N M}
    (h : solve both lin sq cfg qp xg yg old = some st) (hs : st.info.status = .SOLVED) :
    QP.InNormalCone qp.lower qp.upper st.z st.y := by
  obtain ⟨k, s, ha, _, hy, hz⟩ := solved_afterPass h hs
  rw [← hy, ← hz]
  exact dual_in_normal_cone hc hrho ha

/-! ## C05 -/

/-- C05. The status is SOLVED or MAX_ITER_EXCEEDED. -/
theorem status_cases {st : State K N M} (h : solve both lin sq cfg qp xg yg old = some st) :
    st.info.status = .SOLVED ∨ st.info.status = .MAX_ITER_EXCEEDED := by
  rcases solve_cases h with ⟨j, s, s', hr, hb, hj, rfl⟩ | ⟨s, hr, rfl⟩
  · obtain ⟨_, rfl, _⟩ := brk_spec hb
    exact Or.inl rfl
  · exact Or.inr rfl

/-- C05. On SOLVED the iteration number is between 1 and `max_iter`, a multiple of the (nonzero) check interval. -/
theorem solved_iter {st : State K N M} (h : solve both lin sq cfg qp xg yg old = some st)
    (hs : st.info.status = .SOLVED) :
    1 ≤ st.info.iter ∧ st.info.iter ≤ cfg.maxIter ∧ cfg.checkTermination ≠ 0 ∧
      cfg.checkTermination ∣ st.info.iter := by
  rcases solve_cases h with ⟨j, s, s', hr, hb, hj, rfl⟩ | ⟨s, hr, rfl⟩
  · obtain ⟨hc, rfl, _⟩ := brk_spec hb
    simp only [checkNow, Bool.and_eq_true, decide_eq_true_eq] at hc
    refine ⟨by push_cast; omega, hj, hc.1, Int.dvd_of_tmod_eq_zero hc.2⟩
  · simp at hs

/-- C05. With checking disabled the status is never SOLVED. -/
theorem never_solved_unchecked {st : State K N M} (h : solve both lin sq cfg qp xg yg old = some st)
    (h0 : cfg.checkTermination = 0) : st.info.status = .MAX_ITER_EXCEEDED := by
  rcases status_cases h with hs | hs
  · exact absurd h0 (solved_iter h hs).2.2.1
  · exact hs

/-- C05. On MAX_ITER_EXCEEDED the iteration number is `max(max_iter, 0) + 1`. -/
theorem exceeded_iter {st : State K N M} (h : solve both lin sq cfg qp xg yg old = some st)
    (hs : st.info.status = .MAX_ITER_EXCEEDED) : st.info.iter = max cfg.maxIter 0 + 1 := by
  rcases solve_cases h with ⟨j, s, s', hr, hb, hj, rfl⟩ | ⟨s, hr, rfl⟩
  · obtain ⟨hc, rfl, _⟩ := brk_spec hb
    simp at hs
  · simp only [Nat.cast_add, Int.ofNat_toNat, Nat.cast_one]

/-- C05. MAX_ITER_EXCEEDED means that the termination test failed at every pass at which it was evaluated. -/
theorem exceeded_all_checks_failed {st : State K N M} (h : solve both lin sq cfg qp xg yg old = some st)
    (hs : st.info.status = .MAX_ITER_EXCEEDED) (k : ℕ) (hk : 1 ≤ k) (hk' : (k : ℤ) ≤ cfg.maxIter)
    (hc : cfg.checkTermination ≠ 0) (hd : cfg.checkTermination ∣ (k : ℤ)) :
    ∃ s, AfterPass both lin sq cfg qp xg yg old k s ∧
      ¬ (infNorm (qp.rows s.x - s.z) ≤ cfg.epsAbs + cfg.epsRel * primalScale qp s.x s.z ∧
         infNorm (qp.lagrangianGradient s.x s.y) ≤ cfg.epsAbs + cfg.epsRel * dualScale qp s.x s.y) := by
  rcases solve_cases h with ⟨j, s, s', hr, hb, hj, rfl⟩ | ⟨s, hr, rfl⟩
  · obtain ⟨hc, rfl, _⟩ := brk_spec hb
    simp at hs
  · -- every shorter prefix of a running run is a run
    have pre : ∀ n s, Running both lin sq cfg qp xg yg old n s → ∀ m, m < n →
        ∃ t t', Running both lin sq cfg qp xg yg old m t ∧ body lin sq cfg qp (m + 1 : ℕ) t = .cont t' := by
      intro n s hr
      induction hr with
      | init => intro m hm; omega
      | @cont k st st' h hb ih =>
        intro m hm
        rcases Nat.lt_succ_iff_lt_or_eq.mp hm with h1 | rfl
        · exact ih m h1
        · exact ⟨st, st', h, hb⟩
    obtain ⟨m, rfl⟩ : ∃ m, k = m + 1 := ⟨k - 1, by omega⟩
    obtain ⟨t, t', ht, hb⟩ := pre _ _ hr m (by omega)
    refine ⟨t', ⟨m, t, rfl, ht, Or.inl hb⟩, ?_⟩
    have hs := body_sameIter (Or.inl hb)
    rw [hs.1, hs.2.1, hs.2.2.1, ← terminationCriteria_iff]
    have hck : checkNow cfg ((m + 1 : ℕ) : ℤ) = true := by
      simp only [checkNow, Bool.and_eq_true, decide_eq_true_eq]
      exact ⟨hc, Int.tmod_eq_zero_of_dvd hd⟩
    rcases body_cases (lin := lin) (sq := sq) (cfg := cfg) (qp := qp) ((m + 1 : ℕ) : ℤ) t with
      ⟨s', hb', _⟩ | ⟨hb', _⟩ | ⟨s2, hs2, hf, _⟩
    · rw [hb'] at hb; cases hb
    · rw [hb'] at hb; cases hb
    · have := hf hck
      rw [← this.1, this.2]
      simp

/-- C05. `solve` is undefined only when `adaptive_rho` is on with a zero interval. -/
theorem solve_defined (h : cfg.adaptiveRho = false ∨ cfg.adaptiveRhoInterval ≠ 0) :
    (solve both lin sq cfg qp xg yg old).isSome := by
  have key : ∀ n it st, (loop lin sq cfg qp n it st).isSome := by
    intro n
    induction n with
    | zero => intro it st; simp [loop]
    | succ n ih =>
      intro it st
      simp only [loop]
      split
      · rename_i hb
        rcases body_cases (lin := lin) (sq := sq) (cfg := cfg) (qp := qp) it st with
          ⟨s', hb', _⟩ | ⟨_, h1, h2⟩ | ⟨s2, _, _, hb' | ⟨_, _, _, _, hb'⟩⟩
        · rw [hb'] at hb; cases hb
        · rcases h with h | h
          · rw [h] at h1; cases h1
          · exact absurd h2 h
        · rw [hb'] at hb; cases hb
        · rw [hb'] at hb; cases hb
      · simp
      · exact ih _ _
  unfold solve
  split
  · rename_i hl
    have := key cfg.maxIter.toNat 1 (setup both cfg qp xg yg old)
    rw [hl] at this
    cases this
  · simp

/-! ## C08 -/

/-- C08. The scalar step size is the configured one until the first adaptation and within the limits afterwards; after
a pass in which it changed it is within the limits. -/
theorem rho_within_limits {k : ℕ} {st : State K N M} (h : AfterPass both lin sq cfg qp xg yg old k st) :
    (st.rho = cfg.rho ∨ (rhoMin ≤ st.rho ∧ st.rho ≤ rhoMax)) ∧
    (cfg.adaptiveRho = false → st.rho = cfg.rho) := by
  obtain ⟨k', st', rfl, hr, hb⟩ := h
  have h1 := rho_running hr
  have h2 := rho_body hb
  constructor
  · rcases h2 with h2 | h2
    · rw [h2]; exact h1.imp_right And.right
    · exact Or.inr h2.2
  · intro ha
    rcases h2 with h2 | h2
    · rw [h2]
      rcases h1 with h1 | h1
      · exact h1
      · rw [ha] at h1; exact absurd h1.1 (by simp)
    · rw [ha] at h2; exact absurd h2.1 (by simp)

/-- The limits are `1e-6` and `1e6`. -/
theorem rho_limits : (rhoMin : K) = 1 / 10 ^ 6 ∧ (rhoMax : K) = 10 ^ 6 := by
  unfold rhoMin rhoMax; norm_num

/-- C08. Each entry of the step-size vector matches the kind of its constraint, and the inverse vector is its inverse. -/
theorem rhoVec_entries {k : ℕ} {st : State K N M} (h : AfterPass both lin sq cfg qp xg yg old k st)
    (i : Fin M ⊕ Fin N) :
    st.rhoInvVec i = (st.rhoVec i)⁻¹ ∧
    st.rhoVec i =
      if qp.lower i < -(10 ^ 10) ∧ 10 ^ 10 < qp.upper i then 1 / 10 ^ 6
      else if qp.upper i - qp.lower i < 1 / 10 ^ 4 then 1000 * st.rho
      else st.rho := by
  have hi := stepInv_afterPass h
  refine ⟨by rw [hi.ri], ?_⟩
  have key : ∀ l u r : K, rhoEntry (classify l u) r =
      if l < -(10 ^ 10) ∧ 10 ^ 10 < u then 1 / 10 ^ 6 else if u - l < 1 / 10 ^ 4 then 1000 * r else r := by
    intro l u r
    have e1 : (looseBoundsThresh : K) = 10 ^ 10 := by unfold looseBoundsThresh; norm_num
    have e2 : (eqTol : K) = 1 / 10 ^ 4 := by unfold eqTol; norm_num
    have e3 : (rhoMin : K) = 1 / 10 ^ 6 := by unfold rhoMin; norm_num
    unfold classify
    rw [e1, e2]
    simp only [gt_iff_lt]
    split_ifs
    · exact e3
    · rfl
    · rfl
  rw [hi.rv, hi.ct, hi.bt]
  rcases i with i | i
  · exact key (qp.Alb i) (qp.Aub i) st.rho
  · exact key (qp.xlb i) (qp.xub i) st.rho

/-- C08. With a positive initial step size all entries stay positive. -/
theorem rhoVec_positive (hrho : 0 < cfg.rho) {k : ℕ} {st : State K N M}
    (h : AfterPass both lin sq cfg qp xg yg old k st) (i : Fin M ⊕ Fin N) : 0 < st.rhoVec i := by
  have hi := stepInv_afterPass h
  refine hi.rhoVec_pos ?_ i
  rcases (rho_within_limits h).1 with h1 | h1
  · rw [h1]; exact hrho
  · exact lt_of_lt_of_le rhoMin_pos h1.1

/-! ## C09 -/

/-- C09. After every pass, whatever adaptations were made, the KKT matrix patched in place, and the matrix that was
factorised last, is the one a fresh assembly with the current step sizes would produce. -/
theorem kkt_equals_reassembly {k : ℕ} {st : State K N M} (h : AfterPass both lin sq cfg qp xg yg old k st) :
    st.kkt = constructKkt both cfg.sigma qp.H (constructA qp.A) st.rhoInvVec old.kkt ∧ st.fact = st.kkt :=
  ⟨(stepInv_afterPass h).kkt, (stepInv_afterPass h).fact⟩

/-- C09. Entries of the KKT matrix in terms of the problem data (`Upper|Lower` storage). -/
theorem kkt_entries {k : ℕ} {st : State K N M} (h : AfterPass true lin sq cfg qp xg yg old k st) :
    st.fact = Matrix.fromBlocks (qp.H + cfg.sigma • (1 : Matrix (Fin N) (Fin N) K))
      (Matrix.fromCols qp.Aᵀ 1) (Matrix.fromRows qp.A 1) (-(Matrix.diagonal fun i => (st.rhoVec i)⁻¹)) := by
  have hi := stepInv_afterPass h
  rw [hi.fact, hi.kkt, ← hi.ri]
  congr 1
  · congr 1
    ext i j
    simp [Matrix.diagonal_apply, Matrix.one_apply]
  · simp [constructA, Matrix.transpose_fromRows]
  · simp

/-! ## C10 -/

/-- C10. Classification of a pair of bounds. -/
theorem classify_spec (lb ub : K) :
    (classify lb ub = .LOOSE_BOUNDS ↔ lb < -(10 ^ 10) ∧ 10 ^ 10 < ub) ∧
    (classify lb ub = .EQUALITY_CONSTRAINT ↔ ¬ (lb < -(10 ^ 10) ∧ 10 ^ 10 < ub) ∧ ub - lb < 1 / 10 ^ 4) ∧
    (classify lb ub = .INEQUALITY_CONSTRAINT ↔ ¬ (lb < -(10 ^ 10) ∧ 10 ^ 10 < ub) ∧ 1 / 10 ^ 4 ≤ ub - lb) := by
  have e1 : (looseBoundsThresh : K) = 10 ^ 10 := by unfold looseBoundsThresh; norm_num
  have e2 : (eqTol : K) = 1 / 10 ^ 4 := by unfold eqTol; norm_num
  unfold classify
  rw [e1, e2]
  simp only [gt_iff_lt]
  split_ifs with h1 h2
  · simp [h1]
  · have h2' := not_le.mpr h2
    simp only [reduceCtorEq, h1, h2, h2', not_false_eq_true, and_self, and_false]
  · have h2' := not_lt.mp h2
    simp only [reduceCtorEq, h1, h2, h2', not_false_eq_true, and_self, and_false]

/-- C10. The solver stores exactly this classification for rows and variables at every pass. -/
theorem stored_types {k : ℕ} {st : State K N M} (h : AfterPass both lin sq cfg qp xg yg old k st) :
    (∀ i, st.constrType i = classify (qp.Alb i) (qp.Aub i)) ∧ (∀ i, st.boxType i = classify (qp.xlb i) (qp.xub i)) := by
  have hi := stepInv_afterPass h
  rw [hi.ct, hi.bt]
  exact ⟨fun _ => rfl, fun _ => rfl⟩

/-- C10. A consistent pair of bounds closer than `1e-4` is treated as an equality even if the bounds differ, and
inverted bounds are treated as an equality as well (unless loose). -/
theorem inverted_bounds_equality (lb ub : K) (h : ub < lb) : classify lb ub = .EQUALITY_CONSTRAINT := by
  rw [(classify_spec lb ub).2.1]
  constructor
  · rintro ⟨h1, h2⟩
    have : (-(10 ^ 10) : K) < 10 ^ 10 := by norm_num
    linarith
  · have : (0 : K) < 1 / 10 ^ 4 := by norm_num
    linarith

/-! ## Non-vacuity: a concrete run -/

/-- A QP with one variable and one constraint: minimise `½ x² - x` with `-2 ≤ x ≤ 2` (both as row and as bound). -/
def exampleQP : QP ℚ 1 1 where
  H := fun _ _ => 1
  h := fun _ => -1
  A := fun _ _ => 1
  Alb := fun _ => -2
  Aub := fun _ => 2
  xlb := fun _ => -2
  xub := fun _ => 2

/-- Exact solution of the 3×3 KKT system by elimination (reads the lower triangle only). -/
def exampleLin (Kk : KktMat ℚ 1 1) (b : KktIdx 1 1 → ℚ) : KktIdx 1 1 → ℚ :=
  let i0 : KktIdx 1 1 := Sum.inl 0
  let i1 : KktIdx 1 1 := Sum.inr (Sum.inl 0)
  let i2 : KktIdx 1 1 := Sum.inr (Sum.inr 0)
  let r1 := -(Kk i1 i1)⁻¹
  let r2 := -(Kk i2 i2)⁻¹
  let a := Kk i1 i0
  let c := Kk i2 i0
  let x := (b i0 + a * r1 * b i1 + c * r2 * b i2) / (Kk i0 i0 + a * a * r1 + c * c * r2)
  fun i => match i with
    | Sum.inl _ => x
    | Sum.inr (Sum.inl _) => r1 * (a * x - b i1)
    | Sum.inr (Sum.inr _) => r2 * (c * x - b i2)

/-- Settings of the example: check every second pass, adapt every third pass. -/
def exampleCfg : Settings ℚ :=
  { epsRel := 1/10, epsAbs := 1/10, maxIter := 10, rho := 1, sigma := 1/10, alpha := 1, checkTermination := 2,
    adaptiveRho := true, adaptiveRhoTolerance := 5, adaptiveRhoInterval := 3 }

theorem exampleQP_consistent : exampleQP.Consistent := by
  intro i; rcases i with i | i <;> norm_num [QP.lower, QP.upper, exampleQP]

/-- The example run from a cold start is defined and ends with SOLVED after 4 passes. -/
example : ((solveCold false exampleLin id exampleCfg exampleQP
    (fresh exampleCfg (fun _ => 0) (fun _ => 0) 0)).map fun st => (st.info.status, st.info.iter)) =
      some (.SOLVED, 4) := by
  decide +kernel

/-- With termination checks disabled the same run exceeds its iteration limit. -/
example : ((solveCold false exampleLin id { exampleCfg with checkTermination := 0, maxIter := 3 } exampleQP
    (fresh exampleCfg (fun _ => 0) (fun _ => 0) 0)).map fun st => (st.info.status, st.info.iter)) =
      some (.MAX_ITER_EXCEEDED, 4) := by
  decide +kernel

/-- Adaptation with interval zero is undefined behaviour (remainder by zero). -/
example : (solveCold false exampleLin id { exampleCfg with adaptiveRhoInterval := 0 } exampleQP
    (fresh exampleCfg (fun _ => 0) (fun _ => 0) 0)).isNone = true := by
  decide +kernel

end PolyMPC.Admm
