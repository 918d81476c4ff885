import Verif.Lemmas.BoxAdmm
import Verif.Props.AdmmOptimality

/-!
# Properties C07, C09, C11, C12 (boxADMM part)
-/

set_option linter.unusedSectionVars false

namespace PolyMPC.BoxAdmm
open Matrix PolyMPC.Spec PolyMPC.QPBase
open PolyMPC.Admm (kkt_kernel kkt_system_blocks clip_mem clip_of_lt clip_of_gt dualScale primalScale)

variable {K : Type*} [Field K] [LinearOrder K] [IsStrictOrderedRing K] {N M : ℕ}
variable {both : Bool} {lin : KktMat K N M → (KktIdx N M → K) → (KktIdx N M → K)} {sq : K → K} {cfg : Settings K}
  {qp : QP K N M} {xg : Fin N → K} {yg : Fin M ⊕ Fin N → K} {old : State K N M}

/-- The two auxiliary vectors of boxADMM, constraint rows first. -/
def State.aux (st : State K N M) : Fin M ⊕ Fin N → K := Sum.elim st.z st.q

/-! ## C11 -/

/-- The scale of boxADMM's primal test: `max(‖A x‖, ‖z‖, ‖x‖)`. -/
def boxPrimalScale (qp : QP K N M) (x : Fin N → K) (z : Fin M → K) : K :=
  max (infNorm (qp.A *ᵥ x)) (max (infNorm z) (infNorm x))

theorem terminationCriteria_iff (st : State K N M) :
    terminationCriteria cfg (residualsUpdate qp st) = true ↔
      infNorm (qp.A *ᵥ st.x - st.z) + infNorm (st.x - st.q) ≤
        cfg.epsAbs + cfg.epsRel * boxPrimalScale qp st.x st.z ∧
      infNorm (qp.lagrangianGradient st.x st.y) ≤ cfg.epsAbs + cfg.epsRel * dualScale qp st.x st.y := by
  simp only [terminationCriteria, Bool.and_eq_true, decide_eq_true_eq]
  exact Iff.rfl

theorem rows_sub_aux_le (qp : QP K N M) (st : State K N M) :
    infNorm (qp.rows st.x - st.aux) ≤ infNorm (qp.A *ᵥ st.x - st.z) + infNorm (st.x - st.q) := by
  have : qp.rows st.x - st.aux = Sum.elim (qp.A *ᵥ st.x - st.z) (st.x - st.q) := by
    funext i; rcases i with i | i <;> rfl
  rw [this, infNorm_sumElim]
  have h1 := infNorm_nonneg (qp.A *ᵥ st.x - st.z)
  have h2 := infNorm_nonneg (st.x - st.q)
  exact max_le (by linarith) (by linarith)

/-- C11. If boxADMM reports SOLVED, its residual tests hold at the exposed `x`, `y`, and the reported residuals are the
true residuals. -/
theorem solved_residuals {st : State K N M} (h : solve both lin sq cfg qp xg yg old = some st)
    (hs : st.info.status = .SOLVED) :
    infNorm (qp.A *ᵥ st.x - st.z) + infNorm (st.x - st.q) ≤
      cfg.epsAbs + cfg.epsRel * boxPrimalScale qp st.x st.z ∧
    infNorm (qp.lagrangianGradient st.x st.y) ≤ cfg.epsAbs + cfg.epsRel * dualScale qp st.x st.y ∧
    st.info.resPrim = infNorm (qp.A *ᵥ st.x - st.z) + infNorm (st.x - st.q) ∧
    st.info.resDual = infNorm (qp.lagrangianGradient st.x st.y) := by
  rcases solve_cases h with ⟨j, s, s', hr, hb, hj, rfl⟩ | ⟨s, hr, rfl⟩
  · obtain ⟨_, rfl, ht⟩ := brk_spec hb
    have := (terminationCriteria_iff _).mp ht
    exact ⟨this.1, this.2, rfl, rfl⟩
  · simp at hs

/-- C11. After every pass the auxiliary vectors lie within the bounds and the dual vector is in the normal cone of the
bounds at them. -/
theorem dual_in_normal_cone (hc : qp.Consistent) (hrho : 0 < cfg.rho) {k : ℕ} {st : State K N M}
    (h : AfterPass both lin sq cfg qp xg yg old k st) : QP.InNormalCone qp.lower qp.upper st.aux st.y := by
  obtain ⟨k', st', rfl, hr, hb⟩ := h
  have hi := stepInv_running hr
  have hrp := rho_pos_running hrho hr
  have hs := body_sameIter hb
  intro i
  rcases i with i | i
  · have hpos := hi.rhoVec_pos hrp i
    have hinv : st'.rhoVec i * st'.rhoInvVec i = 1 := by rw [hi.ri]; exact mul_inv_cancel₀ hpos.ne'
    have hz : st.aux (Sum.inl i) = (admmUpdate lin cfg qp st').z i := congrFun hs.2.2.1 i
    have hl : qp.Alb i ≤ qp.Aub i := hc (Sum.inl i)
    rw [hz, hs.2.1, admmUpdate_yA _ _ hinv, admmUpdate_z]
    refine ⟨clip_mem hl, fun hy => ?_, fun hy => ?_⟩
    · have := (mul_pos_iff_of_pos_left hpos).mp hy
      exact clip_of_lt (by linarith)
    · have := (pos_iff_neg_of_mul_neg hy).mp hpos
      exact clip_of_gt hl (by linarith)
  · have hpos := hi.rhoVecBox_pos hrp i
    have hinv : st'.rhoVecBox i * st'.rhoVecBoxInv i = 1 := by rw [hi.rbi]; exact mul_inv_cancel₀ hpos.ne'
    have hz : st.aux (Sum.inr i) = (admmUpdate lin cfg qp st').q i := congrFun hs.2.2.2.1 i
    have hl : qp.xlb i ≤ qp.xub i := hc (Sum.inr i)
    rw [hz, hs.2.1, admmUpdate_yB _ _ hinv, admmUpdate_q]
    refine ⟨clip_mem hl, fun hy => ?_, fun hy => ?_⟩
    · have := (mul_pos_iff_of_pos_left hpos).mp hy
      exact clip_of_lt (by linarith)
    · have := (pos_iff_neg_of_mul_neg hy).mp hpos
      exact clip_of_gt hl (by linarith)

theorem solved_afterPass {st : State K N M} (h : solve both lin sq cfg qp xg yg old = some st)
    (hs : st.info.status = .SOLVED) : ∃ k s, AfterPass both lin sq cfg qp xg yg old k s ∧ s.x = st.x ∧ s.y = st.y ∧
      s.aux = st.aux := by
  rcases solve_cases h with ⟨j, s, s', hr, hb, hj, rfl⟩ | ⟨s, hr, rfl⟩
  · exact ⟨j + 1, s', ⟨j, s, rfl, hr, Or.inr hb⟩, rfl, rfl, rfl⟩
  · simp at hs

/-- C11. At SOLVED: dual complementary to the auxiliary vectors, every row and variable violates its bounds by at most
the primal tolerance. -/
theorem solved_kkt (hc : qp.Consistent) (hrho : 0 < cfg.rho) {st : State K N M}
    (h : solve both lin sq cfg qp xg yg old = some st) (hs : st.info.status = .SOLVED) :
    QP.InNormalCone qp.lower qp.upper st.aux st.y ∧
    ∀ i, qp.lower i - (cfg.epsAbs + cfg.epsRel * boxPrimalScale qp st.x st.z) ≤ qp.rows st.x i ∧
      qp.rows st.x i ≤ qp.upper i + (cfg.epsAbs + cfg.epsRel * boxPrimalScale qp st.x st.z) := by
  obtain ⟨k, s, ha, hx, hy, hz⟩ := solved_afterPass h hs
  have hn := dual_in_normal_cone hc hrho ha
  rw [hy, hz] at hn
  refine ⟨hn, fun i => ?_⟩
  have h1 := (rows_sub_aux_le qp st).trans (solved_residuals h hs).1
  have h2 := (le_infNorm (qp.rows st.x - st.aux) i).trans h1
  rw [Pi.sub_apply, abs_le] at h2
  have hb := (hn i).1
  constructor <;> linarith [h2.1, h2.2, hb.1, hb.2]

/-- C11. At SOLVED the objective is near-optimal for convex QPs. -/
theorem solved_near_optimal (hconv : qp.Convex) (hc : qp.Consistent) (hrho : 0 < cfg.rho) {st : State K N M}
    (h : solve both lin sq cfg qp xg yg old = some st) (hs : st.info.status = .SOLVED)
    (w : Fin N → K) (hw : qp.Feasible w) :
    qp.objective st.x ≤ qp.objective w + st.info.resDual * oneNorm (st.x - w) + st.info.resPrim * oneNorm st.y := by
  obtain ⟨_, _, h3, h4⟩ := solved_residuals h hs
  have := qp.near_optimal hconv st.x w st.y st.aux (solved_kkt hc hrho h hs).1 hw
  rw [h3, h4]
  have h5 := mul_le_mul_of_nonneg_right (rows_sub_aux_le qp st) (oneNorm_nonneg st.y)
  linarith

/-- C11, status and iteration number. -/
theorem status_iter {st : State K N M} (h : solve both lin sq cfg qp xg yg old = some st) :
    (st.info.status = .SOLVED ∧ 1 ≤ st.info.iter ∧ st.info.iter ≤ cfg.maxIter ∧ cfg.checkTermination ≠ 0 ∧
      cfg.checkTermination ∣ st.info.iter) ∨
    (st.info.status = .MAX_ITER_EXCEEDED ∧ st.info.iter = max cfg.maxIter 0 + 1) := by
  rcases solve_cases h with ⟨j, s, s', hr, hb, hj, rfl⟩ | ⟨s, hr, rfl⟩
  · left
    obtain ⟨hc, rfl, _⟩ := brk_spec hb
    simp only [checkNow, Bool.and_eq_true, decide_eq_true_eq] at hc
    exact ⟨rfl, by push_cast; omega, hj, hc.1, Int.dvd_of_tmod_eq_zero hc.2⟩
  · right
    exact ⟨rfl, by simp only [Nat.cast_add, Int.ofNat_toNat, Nat.cast_one]⟩

/-! ## C08 -/

/-- C08 for boxADMM. -/
theorem rho_within_limits {k : ℕ} {st : State K N M} (h : AfterPass both lin sq cfg qp xg yg old k st) :
    (st.rho = cfg.rho ∨ (1 / 10 ^ 6 ≤ st.rho ∧ st.rho ≤ 10 ^ 6)) ∧
    (cfg.adaptiveRho = false → st.rho = cfg.rho) := by
  obtain ⟨k', st', rfl, hr, hb⟩ := h
  have e1 : (rhoMin : K) = 1 / 10 ^ 6 := by unfold rhoMin; norm_num
  have e2 : (rhoMax : K) = 10 ^ 6 := by unfold rhoMax; norm_num
  have h1 := rho_running hr
  have h2 := rho_body hb
  rw [e1, e2] at h1 h2
  constructor
  · rcases h2 with h2 | h2
    · rw [h2]; exact h1.imp_right And.right
    · exact Or.inr h2.2
  · intro ha
    rcases h2 with h2 | h2
    · rw [h2]
      rcases h1 with h1 | h1
      · exact h1
      · rw [ha] at h1; exact absurd h1.1 (by simp)
    · rw [ha] at h2; exact absurd h2.1 (by simp)

/-- C08 for boxADMM: each step-size entry matches the kind of its constraint. -/
theorem rhoVec_entries {k : ℕ} {st : State K N M} (h : AfterPass both lin sq cfg qp xg yg old k st) :
    (∀ i, st.rhoInvVec i = (st.rhoVec i)⁻¹ ∧ st.rhoVec i =
      if qp.Alb i < -(10 ^ 10) ∧ 10 ^ 10 < qp.Aub i then 1 / 10 ^ 6
      else if qp.Aub i - qp.Alb i < 1 / 10 ^ 4 then 1000 * st.rho else st.rho) ∧
    (∀ i, st.rhoVecBoxInv i = (st.rhoVecBox i)⁻¹ ∧ st.rhoVecBox i =
      if qp.xlb i < -(10 ^ 10) ∧ 10 ^ 10 < qp.xub i then 1 / 10 ^ 6
      else if qp.xub i - qp.xlb i < 1 / 10 ^ 4 then 1000 * st.rho else st.rho) := by
  have hi := stepInv_afterPass h
  have key : ∀ l u r : K, rhoEntry (classify l u) r =
      if l < -(10 ^ 10) ∧ 10 ^ 10 < u then 1 / 10 ^ 6 else if u - l < 1 / 10 ^ 4 then 1000 * r else r := by
    intro l u r
    have e1 : (looseBoundsThresh : K) = 10 ^ 10 := by unfold looseBoundsThresh; norm_num
    have e2 : (eqTol : K) = 1 / 10 ^ 4 := by unfold eqTol; norm_num
    have e3 : (rhoMin : K) = 1 / 10 ^ 6 := by unfold rhoMin; norm_num
    unfold classify
    rw [e1, e2]
    simp only [gt_iff_lt]
    split_ifs
    · exact e3
    · rfl
    · rfl
  refine ⟨fun i => ⟨by rw [hi.ri], ?_⟩, fun i => ⟨by rw [hi.rbi], ?_⟩⟩
  · rw [hi.rv, hi.ct]; exact key (qp.Alb i) (qp.Aub i) st.rho
  · rw [hi.rb, hi.bt]; exact key (qp.xlb i) (qp.xub i) st.rho

/-! ## C09 -/

/-- C09. After every pass, whatever adaptations were made, the matrix patched in place (and factorised) is the one a
fresh assembly with the current step sizes would produce. -/
theorem kkt_equals_reassembly {k : ℕ} {st : State K N M} (h : AfterPass both lin sq cfg qp xg yg old k st) :
    st.kkt = constructKkt both cfg.sigma qp.H qp.A st.rhoVecBox st.rhoInvVec old.kkt ∧ st.fact = st.kkt :=
  ⟨(stepInv_afterPass h).kkt, (stepInv_afterPass h).fact⟩

/-- C09, entry by entry (lower triangle of blocks), in terms of the problem data and the current step sizes. -/
theorem kkt_entries {k : ℕ} {st : State K N M} (h : AfterPass both lin sq cfg qp xg yg old k st) :
    (∀ i j, st.fact (Sum.inl i) (Sum.inl j) = qp.H i j + if i = j then cfg.sigma + st.rhoVecBox i else 0) ∧
    (∀ i j, st.fact (Sum.inr i) (Sum.inl j) = qp.A i j) ∧
    (both = true → ∀ i j, st.fact (Sum.inl i) (Sum.inr j) = qp.A j i) ∧
    (∀ i, st.fact (Sum.inr i) (Sum.inr i) = -(st.rhoVec i)⁻¹) := by
  have hi := stepInv_afterPass h
  rw [hi.fact, hi.kkt]
  refine ⟨fun i j => ?_, fun i j => rfl, fun hb i j => ?_, fun i => ?_⟩
  · simp only [constructKkt, Matrix.fromBlocks_apply₁₁, Matrix.add_apply, Matrix.diagonal_apply]
    split_ifs <;> ring
  · subst hb; rfl
  · simp only [constructKkt, Matrix.fromBlocks_apply₂₂, Matrix.of_apply, if_true]
    rw [hi.ri]

/-- The off-diagonal entries of the bottom right block are zero in a new object and no solve changes them. -/
def CleanCorner (A : KktMat K N M) : Prop := ∀ i j : Fin M, i ≠ j → A (Sum.inr i) (Sum.inr j) = 0

theorem cleanCorner_fresh (cfg : Settings K) (v : Fin M → K) (x : Fin N → K) (c : K) :
    CleanCorner (fresh cfg v x c).kkt := fun _ _ _ => rfl

/-- A completed solve keeps the bottom right block of the KKT matrix diagonal, so the same object can be used again. -/
theorem cleanCorner_solve {st : State K N M} (ho : CleanCorner old.kkt)
    (h : solve both lin sq cfg qp xg yg old = some st) : CleanCorner st.kkt := by
  have key : ∀ s : State K N M, StepInv both cfg qp old.kkt s → CleanCorner s.kkt := by
    intro s hs i j hij
    rw [hs.kkt]
    simp only [constructKkt, Matrix.fromBlocks_apply₂₂, Matrix.of_apply, if_neg hij]
    exact ho i j hij
  rcases solve_cases h with ⟨j, s, s', hr, hb, hj, rfl⟩ | ⟨s, hr, rfl⟩
  · exact key s' (stepInv_body (stepInv_running hr) (Or.inr hb))
  · exact key s (stepInv_running hr)

/-! ## C07 -/

theorem readLower_eq {A T : KktMat K N M} (hT : Tᵀ = T) (h : ∀ i j, kktPos j ≤ kktPos i → A i j = T i j) :
    readLower A = T := by
  ext i j
  unfold readLower
  split_ifs with hij
  · exact h i j hij
  · rw [h j i (by omega)]; exact congrFun (congrFun hT i) j

/-- The assembled matrix as seen by the decomposition, for symmetric `H`. -/
theorem effective_constructKkt (hs : qp.Hᵀ = qp.H) (sigma : K) (rb : Fin N → K) (d : Fin M → K) {o : KktMat K N M}
    (ho : CleanCorner o) :
    effective both (constructKkt both sigma qp.H qp.A rb d o) =
      Matrix.fromBlocks ((qp.H + Matrix.diagonal rb) + Matrix.diagonal fun _ => sigma) qp.Aᵀ qp.A
        (-(Matrix.diagonal d)) := by
  have hcorner : (Matrix.of fun i j => if i = j then -(d i) else o.toBlocks₂₂ i j) = -(Matrix.diagonal d) := by
    ext i j
    simp only [Matrix.of_apply, Matrix.neg_apply, Matrix.diagonal_apply]
    by_cases hij : i = j
    · simp [hij]
    · simp only [hij, if_false, neg_zero]; exact ho i j hij
  have hsum : qp.H + (Matrix.diagonal fun _ => sigma) + Matrix.diagonal rb =
      (qp.H + Matrix.diagonal rb) + Matrix.diagonal fun _ => sigma := add_right_comm _ _ _
  cases both with
  | true => simp only [effective, constructKkt, if_true, hcorner, hsum]
  | false =>
    simp only [effective, Bool.false_eq_true, if_false]
    apply readLower_eq
    · rw [Matrix.fromBlocks_transpose]
      simp [hs]
    · intro i j hij
      simp only [constructKkt, hcorner, hsum]
      rcases i with i | i <;> rcases j with j | j
      · rfl
      · exfalso
        simp only [kktPos] at hij; omega
      · rfl
      · rfl

theorem psd_add_diagonal {H : Matrix (Fin N) (Fin N) K} (hH : ∀ x, 0 ≤ x ⬝ᵥ H *ᵥ x) {rb : Fin N → K}
    (hrb : ∀ i, 0 < rb i) (x : Fin N → K) : 0 ≤ x ⬝ᵥ (H + Matrix.diagonal rb) *ᵥ x := by
  rw [Matrix.add_mulVec, dotProduct_add]
  have : 0 ≤ x ⬝ᵥ Matrix.diagonal rb *ᵥ x := by
    simp only [dotProduct, Matrix.mulVec_diagonal]
    refine Finset.sum_nonneg fun i _ => ?_
    have := mul_nonneg (hrb i).le (mul_self_nonneg (x i))
    linarith [this]
  linarith [hH x]

/-- C07 for boxADMM. The linear system is nonsingular for convex QPs. -/
theorem kkt_nonsingular (hconv : qp.Convex) {sigma : K} (hsig : 0 < sigma) {rb : Fin N → K} (hrb : ∀ i, 0 < rb i)
    {rhoInv : Fin M → K} (hr : ∀ i, 0 < rhoInv i) {o : KktMat K N M} (ho : CleanCorner o) :
    (effective both (constructKkt both sigma qp.H qp.A rb rhoInv o)).det ≠ 0 := by
  rw [effective_constructKkt hconv.1 _ _ _ ho]
  intro hdet
  obtain ⟨v, hv, hv0⟩ := Matrix.exists_mulVec_eq_zero_iff.mpr hdet
  exact hv (kkt_kernel (psd_add_diagonal hconv.2 hrb) hsig _ hr v hv0)

/-- C07 for boxADMM along a run. -/
theorem run_kkt_nonsingular (hconv : qp.Convex) (hsig : 0 < cfg.sigma) (hrho : 0 < cfg.rho)
    (ho : CleanCorner old.kkt) {k : ℕ} {st : State K N M} (h : Running both lin sq cfg qp xg yg old k st) :
    (effective both st.fact).det ≠ 0 := by
  have hi := stepInv_running h
  have hrp := rho_pos_running hrho h
  rw [hi.fact, hi.kkt]
  refine kkt_nonsingular (both := both) hconv hsig (hi.rhoVecBox_pos hrp) (fun i => ?_) ho
  rw [hi.ri]; exact inv_pos.mpr (hi.rhoVec_pos hrp i)

/-! ## C12 -/

/-- The linear solve of one pass, in terms of the problem data (exact solver). -/
theorem exact_step (hex : ExactSolver both lin) (hconv : qp.Convex) (hsig : 0 < cfg.sigma) {st : State K N M}
    {o : KktMat K N M} (ho : CleanCorner o)
    (hfact : st.fact = constructKkt both cfg.sigma qp.H qp.A st.rhoVecBox st.rhoInvVec o)
    (hpos : ∀ i, 0 < st.rhoInvVec i) (hposb : ∀ i, 0 < st.rhoVecBox i) :
    ∃ xt nu, (∀ xt' nu', (qp.H *ᵥ xt' + cfg.sigma • xt' + (fun i => st.rhoVecBox i * xt' i) + qp.Aᵀ *ᵥ nu' =
          (fun i => cfg.sigma * st.x i - qp.h i + st.rhoVecBox i * st.q i - tailN st.y i) ∧
        (∀ i, (qp.A *ᵥ xt') i - st.rhoInvVec i * nu' i = st.z i - st.rhoInvVec i * headM st.y i)) ↔
          (xt' = xt ∧ nu' = nu)) ∧
      (admmUpdate lin cfg qp st).xTilde = xt ∧
      (admmUpdate lin cfg qp st).zTilde = fun i => st.z i + st.rhoInvVec i * (nu i - headM st.y i) := by
  set b := kktRhs cfg.sigma qp.h st with hb
  have hdet := kkt_nonsingular (both := both) hconv hsig hposb hpos ho
  have hsol := hex st.fact b (by rw [hfact]; exact hdet)
  rw [hfact, effective_constructKkt hconv.1 _ _ _ ho, ← hfact, kkt_system_blocks] at hsol
  refine ⟨fun i => lin st.fact b (Sum.inl i), fun i => lin st.fact b (Sum.inr i), ?_, rfl, rfl⟩
  have hP : ∀ x : Fin N → K, ((qp.H + Matrix.diagonal st.rhoVecBox) + Matrix.diagonal fun _ => cfg.sigma) *ᵥ x =
      qp.H *ᵥ x + cfg.sigma • x + (fun i => st.rhoVecBox i * x i) := by
    intro x
    rw [Matrix.add_mulVec, Matrix.add_mulVec]
    funext i
    simp only [Pi.add_apply, Matrix.mulVec_diagonal, Pi.smul_apply, smul_eq_mul]
    ring
  have hbl : (fun i => b (Sum.inl i)) =
      fun i => cfg.sigma * st.x i - qp.h i + st.rhoVecBox i * st.q i - tailN st.y i := by
    funext i; simp [hb, kktRhs]
  have hbr : ∀ i, b (Sum.inr i) = st.z i - st.rhoInvVec i * headM st.y i := by
    intro i; simp [hb, kktRhs]
  rw [hP, hbl] at hsol
  simp only [hbr] at hsol
  intro xt' nu'
  constructor
  · intro h'
    have hz : (Sum.elim xt' nu' : KktIdx N M → K) = lin st.fact b := by
      have hsys : ∀ s : KktIdx N M → K, (s = Sum.elim xt' nu' ∨ s = lin st.fact b) →
          Matrix.fromBlocks ((qp.H + Matrix.diagonal st.rhoVecBox) + Matrix.diagonal fun _ => cfg.sigma) qp.Aᵀ qp.A
            (-(Matrix.diagonal st.rhoInvVec)) *ᵥ s = b := by
        intro s hs
        rw [kkt_system_blocks, hP, hbl]
        simp only [hbr]
        rcases hs with rfl | rfl
        · exact h'
        · exact hsol
      have hd := kkt_kernel (psd_add_diagonal hconv.2 hposb) hsig qp.A hpos (Sum.elim xt' nu' - lin st.fact b) (by
        rw [Matrix.mulVec_sub, hsys _ (Or.inl rfl), hsys _ (Or.inr rfl), sub_self])
      exact sub_eq_zero.mp hd
    rw [← hz]
    exact ⟨rfl, rfl⟩
  · rintro ⟨rfl, rfl⟩
    exact hsol

/-- At a KKT point the linear solve returns the point itself. -/
theorem exact_step_at_kkt (hex : ExactSolver both lin) (hconv : qp.Convex) (hsig : 0 < cfg.sigma) {st : State K N M}
    {o : KktMat K N M} (ho : CleanCorner o)
    (hfact : st.fact = constructKkt both cfg.sigma qp.H qp.A st.rhoVecBox st.rhoInvVec o)
    (hpos : ∀ i, 0 < st.rhoInvVec i) (hposb : ∀ i, 0 < st.rhoVecBox i)
    (hz : st.aux = qp.rows st.x) (hkkt : qp.lagrangianGradient st.x st.y = 0) :
    (admmUpdate lin cfg qp st).xTilde = st.x ∧ (admmUpdate lin cfg qp st).zTilde = st.z := by
  obtain ⟨xt, nu, huniq, hxt, hzt⟩ := exact_step hex hconv hsig ho hfact hpos hposb
  have hq : st.q = st.x := by funext i; exact congrFun hz (Sum.inr i)
  have hzA : ∀ i, st.z i = (qp.A *ᵥ st.x) i := fun i => congrFun hz (Sum.inl i)
  obtain ⟨e1, e2⟩ := (huniq st.x (headM st.y)).mp ⟨by
    funext i
    have := congrFun hkkt i
    simp only [QP.lagrangianGradient, Pi.add_apply, Pi.zero_apply] at this
    simp only [Pi.add_apply, Pi.smul_apply, smul_eq_mul, hq]
    have e1 : (qp.Aᵀ *ᵥ headM st.y) i = (qp.Aᵀ *ᵥ QP.yA st.y) i := rfl
    have e2 : tailN st.y i = QP.yBox st.y i := rfl
    rw [e1, e2]
    linarith, fun i => by rw [hzA i]⟩
  refine ⟨by rw [hxt, ← e1], ?_⟩
  rw [hzt, ← e2]
  funext i
  ring

/-- C12. At a KKT point (`z = A x`, `q = x`) a boxADMM pass leaves `x` unchanged if and only if `alpha = 1` or
`x = 0`: over-relaxation moves the iterate away from every nonzero solution. -/
theorem kkt_point_x_fixed_iff (hex : ExactSolver both lin) (hconv : qp.Convex) (hsig : 0 < cfg.sigma)
    {st : State K N M} {o : KktMat K N M} (ho : CleanCorner o)
    (hfact : st.fact = constructKkt both cfg.sigma qp.H qp.A st.rhoVecBox st.rhoInvVec o)
    (hpos : ∀ i, 0 < st.rhoInvVec i) (hposb : ∀ i, 0 < st.rhoVecBox i)
    (hz : st.aux = qp.rows st.x) (hkkt : qp.KKT st.x st.y) :
    (admmUpdate lin cfg qp st).x = st.x ↔ (cfg.alpha = 1 ∨ st.x = 0) := by
  obtain ⟨hxt, _⟩ := exact_step_at_kkt hex hconv hsig ho hfact hpos hposb hz hkkt.1
  have hx : (admmUpdate lin cfg qp st).x = fun i => cfg.alpha * (2 - cfg.alpha) * st.x i := by
    have : (admmUpdate lin cfg qp st).x = xUpdate cfg.alpha (admmUpdate lin cfg qp st).xTilde := rfl
    rw [this, hxt]
    funext i
    exact xUpdate_apply _ _ _
  rw [hx]
  constructor
  · intro h
    by_cases ha : cfg.alpha = 1
    · exact Or.inl ha
    · right
      funext i
      have := congrFun h i
      have h2 : (cfg.alpha - 1) * (cfg.alpha - 1) * st.x i = 0 := by linear_combination -this
      have h3 : (cfg.alpha - 1) * (cfg.alpha - 1) ≠ 0 := mul_ne_zero (sub_ne_zero.mpr ha) (sub_ne_zero.mpr ha)
      exact (mul_eq_zero.mp h2).resolve_left h3
  · rintro (ha | hx0)
    · funext i; rw [ha]; ring
    · funext i; rw [hx0]; simp

/-- C12. With `alpha = 1` a boxADMM pass leaves `(x, y, z, q)` unchanged if and only if `z = A x`, `q = x` and `(x, y)`
is a KKT point. -/
theorem stationary_iff_kkt_of_alpha_one (hex : ExactSolver both lin) (hconv : qp.Convex) (hc : qp.Consistent)
    (hsig : 0 < cfg.sigma) (halpha : cfg.alpha = 1) {st : State K N M} {o : KktMat K N M} (ho : CleanCorner o)
    (hfact : st.fact = constructKkt both cfg.sigma qp.H qp.A st.rhoVecBox st.rhoInvVec o)
    (hpos : ∀ i, 0 < st.rhoVec i) (hposb : ∀ i, 0 < st.rhoVecBox i)
    (hinv : ∀ i, st.rhoInvVec i = (st.rhoVec i)⁻¹) (hinvb : ∀ i, st.rhoVecBoxInv i = (st.rhoVecBox i)⁻¹) :
    ((admmUpdate lin cfg qp st).x = st.x ∧ (admmUpdate lin cfg qp st).y = st.y ∧
      (admmUpdate lin cfg qp st).aux = st.aux) ↔ (st.aux = qp.rows st.x ∧ qp.KKT st.x st.y) := by
  have hposi : ∀ i, 0 < st.rhoInvVec i := fun i => by rw [hinv]; exact inv_pos.mpr (hpos i)
  have hposbi : ∀ i, 0 < st.rhoVecBoxInv i := fun i => by rw [hinvb]; exact inv_pos.mpr (hposb i)
  have hone : ∀ i, st.rhoVec i * st.rhoInvVec i = 1 := fun i => by
    rw [hinv]; exact mul_inv_cancel₀ (hpos i).ne'
  have honeb : ∀ i, st.rhoVecBox i * st.rhoVecBoxInv i = 1 := fun i => by
    rw [hinvb]; exact mul_inv_cancel₀ (hposb i).ne'
  have hxx : (admmUpdate lin cfg qp st).x = (admmUpdate lin cfg qp st).xTilde := by
    have : (admmUpdate lin cfg qp st).x = xUpdate cfg.alpha (admmUpdate lin cfg qp st).xTilde := rfl
    rw [this, halpha]
    funext i
    rw [xUpdate_apply]; ring
  constructor
  · rintro ⟨h1, h2, h3⟩
    obtain ⟨xt, nu, huniq, hxt, hzt⟩ := exact_step hex hconv hsig ho hfact hposi hposb
    have hz3 : (admmUpdate lin cfg qp st).z = st.z := by funext i; exact congrFun h3 (Sum.inl i)
    have hq3 : (admmUpdate lin cfg qp st).q = st.q := by funext i; exact congrFun h3 (Sum.inr i)
    have hxt' : xt = st.x := by rw [← hxt, ← hxx, h1]
    have hproj : ∀ i, projArg lin cfg qp st i =
        st.z i + st.rhoInvVec i * (nu i - headM st.y i) + st.rhoInvVec i * headM st.y i := by
      intro i; rw [projArg, hzt, halpha]; ring
    have hprojb : ∀ i, projArgBox lin cfg qp st i = st.x i + st.rhoVecBoxInv i * tailN st.y i := by
      intro i; rw [projArgBox, h1]
    have hnu : nu = headM st.y := by
      funext i
      have hy := congrFun h2 (Sum.inl i)
      rw [admmUpdate_yA _ _ (hone i), congrFun hz3 i, hproj i] at hy
      have hyy : st.y (Sum.inl i) = headM st.y i := rfl
      rw [hyy] at hy
      have : nu i - headM st.y i = 0 := by
        linear_combination hy - nu i * hone i
      exact sub_eq_zero.mp this
    have hq : st.q = st.x := by
      funext i
      have hy := congrFun h2 (Sum.inr i)
      rw [admmUpdate_yB _ _ (honeb i), congrFun hq3 i, hprojb i] at hy
      have hyy : st.y (Sum.inr i) = tailN st.y i := rfl
      rw [hyy] at hy
      have : st.rhoVecBox i * (st.x i - st.q i) = 0 := by
        linear_combination hy - tailN st.y i * honeb i
      have := (mul_eq_zero.mp this).resolve_left (hposb i).ne'
      linarith
    obtain ⟨e1, e2⟩ := (huniq xt nu).mpr ⟨rfl, rfl⟩
    rw [hxt', hnu] at e1 e2
    have hz : st.aux = qp.rows st.x := by
      funext i
      rcases i with i | i
      · have := e2 i
        change st.z i = (qp.A *ᵥ st.x) i
        linarith
      · exact congrFun hq i
    refine ⟨hz, ?_, ?_⟩
    · funext i
      have := congrFun e1 i
      simp only [Pi.add_apply, Pi.smul_apply, smul_eq_mul, hq] at this
      simp only [QP.lagrangianGradient, Pi.add_apply, Pi.zero_apply]
      have e1 : (qp.Aᵀ *ᵥ headM st.y) i = (qp.Aᵀ *ᵥ QP.yA st.y) i := rfl
      have e2 : tailN st.y i = QP.yBox st.y i := rfl
      rw [e1, e2] at this
      linarith
    · rw [← hz]
      intro i
      rcases i with i | i
      · have hzi := congrFun hz3 i
        rw [admmUpdate_z, hproj i, hnu] at hzi
        have ha : st.z i + st.rhoInvVec i * (headM st.y i - headM st.y i) + st.rhoInvVec i * headM st.y i =
          st.z i + st.rhoInvVec i * headM st.y i := by ring
        rw [ha] at hzi
        have hl : qp.Alb i ≤ qp.Aub i := hc (Sum.inl i)
        change (qp.Alb i ≤ st.z i ∧ st.z i ≤ qp.Aub i) ∧ (0 < headM st.y i → st.z i = qp.Aub i) ∧
          (headM st.y i < 0 → st.z i = qp.Alb i)
        refine ⟨?_, fun hy => ?_, fun hy => ?_⟩
        · rw [← hzi]; exact clip_mem hl
        · have hp := mul_pos (hposi i) hy
          have := clip_of_lt (v := st.z i + st.rhoInvVec i * headM st.y i) (l := qp.Alb i) (u := qp.Aub i)
            (by rw [hzi]; linarith)
          rw [← this, hzi]
        · have hp := mul_neg_of_pos_of_neg (hposi i) hy
          have := clip_of_gt (v := st.z i + st.rhoInvVec i * headM st.y i) hl (by rw [hzi]; linarith)
          rw [← this, hzi]
      · have hzi := congrFun hq3 i
        rw [admmUpdate_q, hprojb i, hq] at hzi
        have hl : qp.xlb i ≤ qp.xub i := hc (Sum.inr i)
        change (qp.xlb i ≤ st.q i ∧ st.q i ≤ qp.xub i) ∧ (0 < tailN st.y i → st.q i = qp.xub i) ∧
          (tailN st.y i < 0 → st.q i = qp.xlb i)
        rw [hq]
        refine ⟨?_, fun hy => ?_, fun hy => ?_⟩
        · rw [← hzi]; exact clip_mem hl
        · have hp := mul_pos (hposbi i) hy
          have := clip_of_lt (v := st.x i + st.rhoVecBoxInv i * tailN st.y i) (l := qp.xlb i) (u := qp.xub i)
            (by rw [hzi]; linarith)
          rw [← this, hzi]
        · have hp := mul_neg_of_pos_of_neg (hposbi i) hy
          have := clip_of_gt (v := st.x i + st.rhoVecBoxInv i * tailN st.y i) hl (by rw [hzi]; linarith)
          rw [← this, hzi]
  · rintro ⟨hz, hkkt⟩
    obtain ⟨hxt, hzt⟩ := exact_step_at_kkt hex hconv hsig ho hfact hposi hposb hz hkkt.1
    have hx1 : (admmUpdate lin cfg qp st).x = st.x := by rw [hxx, hxt]
    have hq : st.q = st.x := by funext i; exact congrFun hz (Sum.inr i)
    have hcone := hkkt.2
    rw [← hz] at hcone
    have hpA : ∀ i, projArg lin cfg qp st i = st.z i + st.rhoInvVec i * headM st.y i := by
      intro i; rw [projArg, hzt, halpha]; ring
    have hpB : ∀ i, projArgBox lin cfg qp st i = st.q i + st.rhoVecBoxInv i * tailN st.y i := by
      intro i; rw [projArgBox, hx1, hq]
    have clip : ∀ {l u z y r : K}, l ≤ u → 0 < r → ((l ≤ z ∧ z ≤ u) ∧ (0 < y → z = u) ∧ (y < 0 → z = l)) →
        min (max (z + r * y) l) u = z := by
      rintro l u z y r hlu hr ⟨⟨b1, b2⟩, c1, c2⟩
      rcases lt_trichotomy y 0 with hy | hy | hy
      · have := mul_neg_of_pos_of_neg hr hy
        rw [c2 hy, max_eq_right (by linarith), min_eq_left hlu]
      · rw [hy, mul_zero, add_zero, max_eq_left b1, min_eq_left b2]
      · have := mul_pos hr hy
        rw [c1 hy, max_eq_left (by linarith), min_eq_right (by linarith)]
    have hz' : (admmUpdate lin cfg qp st).z = st.z := by
      funext i
      rw [admmUpdate_z, hpA]
      exact clip (hc (Sum.inl i)) (hposi i) (hcone (Sum.inl i))
    have hq' : (admmUpdate lin cfg qp st).q = st.q := by
      funext i
      rw [admmUpdate_q, hpB]
      exact clip (hc (Sum.inr i)) (hposbi i) (hcone (Sum.inr i))
    refine ⟨hx1, ?_, ?_⟩
    · funext i
      rcases i with i | i
      · rw [admmUpdate_yA _ _ (hone i), hz', hpA]
        change _ = headM st.y i
        linear_combination (headM st.y i) * hone i
      · rw [admmUpdate_yB _ _ (honeb i), hq', hpB]
        change _ = tailN st.y i
        linear_combination (tailN st.y i) * honeb i
    · unfold State.aux
      rw [hz', hq']

/-! ## Non-vacuity -/

open PolyMPC.Admm (exampleQP exampleCfg exampleQP_consistent exampleQP_convex)

/-- Exact solution of the 2x2 system of the example (lower triangle only). -/
def exampleLin (Kk : KktMat ℚ 1 1) (b : KktIdx 1 1 → ℚ) : KktIdx 1 1 → ℚ :=
  let p := Kk (Sum.inl 0) (Sum.inl 0)
  let a := Kk (Sum.inr 0) (Sum.inl 0)
  let d := -Kk (Sum.inr 0) (Sum.inr 0)
  let x := (b (Sum.inl 0) * d + a * b (Sum.inr 0)) / (p * d + a * a)
  let nu := (a * b (Sum.inl 0) - p * b (Sum.inr 0)) / (p * d + a * a)
  Sum.elim (fun _ => x) (fun _ => nu)

/-- The example run is defined and ends with SOLVED, at a nonzero point. -/
example : ((solve false exampleLin id exampleCfg exampleQP (fun _ => 0) (fun _ => 0)
    (fresh exampleCfg (fun _ => 0) (fun _ => 0) 0)).map fun st =>
      (st.info.status, decide (st.x 0 = 0))) = some (.SOLVED, false) := by
  decide +kernel

/-- The example solver is exact, so C07 and C12 apply to a concrete solver. -/
example : ExactSolver false exampleLin := by
  intro A b hdet
  have e : (effective false A).det = A (Sum.inl 0) (Sum.inl 0) * A (Sum.inr 0) (Sum.inr 0) -
      A (Sum.inr 0) (Sum.inl 0) * A (Sum.inr 0) (Sum.inl 0) := by
    rw [← Matrix.det_reindex_self (finSumFinEquiv (m := 1) (n := 1)), Matrix.det_fin_two]
    rfl
  rw [e] at hdet
  set p := A (Sum.inl 0) (Sum.inl 0) with hp
  set a := A (Sum.inr 0) (Sum.inl 0) with ha
  set d := A (Sum.inr 0) (Sum.inr 0) with hd
  have h0 : p * -d + a * a ≠ 0 := fun h => hdet (by linarith)
  have r1 : effective false A (Sum.inl 0) (Sum.inl 0) = p := rfl
  have r2 : effective false A (Sum.inl 0) (Sum.inr 0) = a := rfl
  have r3 : effective false A (Sum.inr 0) (Sum.inl 0) = a := rfl
  have r4 : effective false A (Sum.inr 0) (Sum.inr 0) = d := rfl
  have key : ∀ c u v w : ℚ, w ≠ 0 → u + v = c * w → u / w + v / w = c := by
    intro c u v w hw h
    rw [← add_div, h, mul_div_assoc, div_self hw, mul_one]
  funext i
  rcases i with i | i <;> obtain rfl : i = 0 := Subsingleton.elim _ _ <;>
    simp only [Matrix.mulVec, dotProduct, Fintype.sum_sum_type, Finset.univ_unique, Finset.sum_singleton,
      Fin.default_eq_zero, exampleLin, Sum.elim_inl, Sum.elim_inr, r1, r2, r3, r4, ← hp, ← ha, ← hd] <;>
    rw [← mul_div_assoc, ← mul_div_assoc] <;> refine key _ _ _ _ h0 ?_ <;> ring

end PolyMPC.BoxAdmm
