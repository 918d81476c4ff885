import Verif.Props.BoxAdmm
import Verif.Props.AdmmConvergence

/-!
# Properties C61 and C62: with `alpha = 1` boxADMM computes the iterates of ADMM, and converges
-/

set_option linter.unusedSectionVars false

namespace PolyMPC.BoxAdmm
open Matrix PolyMPC.Spec PolyMPC.QPBase Filter Topology

section Field
variable {K : Type*} [Field K] [LinearOrder K] [IsStrictOrderedRing K] {N M : ℕ}
variable {both : Bool} {lin : KktMat K N M → (KktIdx N M → K) → (KktIdx N M → K)} {sq : K → K} {cfg : Settings K}
  {qp : QP K N M} {xg : Fin N → K} {yg : Fin M ⊕ Fin N → K} {old : State K N M}
variable {both' : Bool} {lin' : Admm.KktMat K N M → (Admm.KktIdx N M → K) → (Admm.KktIdx N M → K)}
  {old' : Admm.State K N M}

/-- The `k`-th iterate of boxADMM with a fixed step size when nothing stops the loop: `box_admm.hpp:119-147` applied `k`
times to the state before the loop. -/
def iterate (both : Bool) (lin : KktMat K N M → (KktIdx N M → K) → (KktIdx N M → K)) (cfg : Settings K)
    (qp : QP K N M) (xg : Fin N → K) (yg : Fin M ⊕ Fin N → K) (old : State K N M) : ℕ → State K N M
  | 0 => setup both cfg qp xg yg old
  | k + 1 => admmUpdate lin cfg qp (iterate both lin cfg qp xg yg old k)

/-- Agreement in everything the next iterate depends on. -/
def Core (s t : State K N M) : Prop := s.x = t.x ∧ s.y = t.y ∧ s.z = t.z ∧ s.q = t.q ∧ s.rhoVec = t.rhoVec ∧
  s.rhoInvVec = t.rhoInvVec ∧ s.rhoVecBox = t.rhoVecBox ∧ s.rhoVecBoxInv = t.rhoVecBoxInv ∧ s.fact = t.fact

theorem core_admmUpdate {s t : State K N M} (h : Core s t) :
    Core (admmUpdate lin cfg qp s) (admmUpdate lin cfg qp t) := by
  obtain ⟨h1, h2, h3, h4, h5, h6, h7, h8, h9⟩ := h
  simp only [Core, admmUpdate, kktRhs, h1, h2, h3, h4, h5, h6, h7, h8, h9, and_self]

theorem Core.trans {r s t : State K N M} (h1 : Core r s) (h2 : Core s t) : Core r t := by
  obtain ⟨a1, a2, a3, a4, a5, a6, a7, a8, a9⟩ := h1
  obtain ⟨b1, b2, b3, b4, b5, b6, b7, b8, b9⟩ := h2
  exact ⟨a1.trans b1, a2.trans b2, a3.trans b3, a4.trans b4, a5.trans b5, a6.trans b6, a7.trans b7, a8.trans b8,
    a9.trans b9⟩

theorem core_body (ha : cfg.adaptiveRho = false) {it : ℤ} {s t : State K N M}
    (h : body lin sq cfg qp it s = .cont t ∨ body lin sq cfg qp it s = .brk t) :
    Core t (admmUpdate lin cfg qp s) := by
  rcases body_cases (lin := lin) (sq := sq) (cfg := cfg) (qp := qp) it s with
    ⟨s', hb, _, rfl, _⟩ | ⟨hb, _⟩ | ⟨s2, hs2, _, hb | ⟨ht, _⟩⟩
  · rw [hb] at h
    rcases h with h | h <;> cases h
    exact ⟨rfl, rfl, rfl, rfl, rfl, rfl, rfl, rfl, rfl⟩
  · rw [hb] at h; rcases h with h | h <;> cases h
  · rw [hb] at h
    rcases h with h | h <;> cases h
    rcases hs2 with rfl | rfl <;> exact ⟨rfl, rfl, rfl, rfl, rfl, rfl, rfl, rfl, rfl⟩
  · rw [ha] at ht; cases ht

/-- Without step-size adaptation, the states of a run are the iterates. -/
theorem running_iterate (ha : cfg.adaptiveRho = false) {k : ℕ} {st : State K N M}
    (h : Running both lin sq cfg qp xg yg old k st) : Core st (iterate both lin cfg qp xg yg old k) := by
  induction h with
  | init => exact ⟨rfl, rfl, rfl, rfl, rfl, rfl, rfl, rfl, rfl⟩
  | cont _ hb ih => exact (core_body ha (Or.inl hb)).trans (core_admmUpdate ih)

theorem afterPass_iterate (ha : cfg.adaptiveRho = false) {k : ℕ} {st : State K N M}
    (h : AfterPass both lin sq cfg qp xg yg old k st) : Core st (iterate both lin cfg qp xg yg old k) := by
  obtain ⟨k', st', rfl, hr, hb⟩ := h
  exact (core_body ha hb).trans (core_admmUpdate (running_iterate ha hr))

theorem iterate_const (k : ℕ) :
    (iterate both lin cfg qp xg yg old k).rhoVec = (setup both cfg qp xg yg old).rhoVec ∧
    (iterate both lin cfg qp xg yg old k).rhoInvVec = (setup both cfg qp xg yg old).rhoInvVec ∧
    (iterate both lin cfg qp xg yg old k).rhoVecBox = (setup both cfg qp xg yg old).rhoVecBox ∧
    (iterate both lin cfg qp xg yg old k).rhoVecBoxInv = (setup both cfg qp xg yg old).rhoVecBoxInv ∧
    (iterate both lin cfg qp xg yg old k).fact = (setup both cfg qp xg yg old).fact := by
  induction k with
  | zero => exact ⟨rfl, rfl, rfl, rfl, rfl⟩
  | succ k ih => exact ih

/-- A boxADMM state represents an ADMM state: same `x`, same `y`, `(z, q)` is ADMM's `z`, same step sizes. -/
structure Corr (s : State K N M) (t : Admm.State K N M) : Prop where
  x : s.x = t.x
  y : s.y = t.y
  z : s.aux = t.z
  rho : Sum.elim s.rhoVec s.rhoVecBox = t.rhoVec
  rhoInv : Sum.elim s.rhoInvVec s.rhoVecBoxInv = t.rhoInvVec

theorem stacked_transpose (A : Matrix (Fin M) (Fin N) K) (y : Fin M ⊕ Fin N → K) :
    (Admm.constructA A)ᵀ *ᵥ y = Aᵀ *ᵥ headM y + tailN y := by
  rw [Admm.constructA, Matrix.transpose_fromRows, Matrix.fromCols_mulVec, Matrix.transpose_one, Matrix.one_mulVec]
  rfl

theorem stacked_mulVec (A : Matrix (Fin M) (Fin N) K) (x : Fin N → K) :
    Admm.constructA A *ᵥ x = Sum.elim (A *ᵥ x) x := by
  rw [Admm.constructA, Matrix.fromRows_mulVec, Matrix.one_mulVec]

/-- One pass of boxADMM with `alpha = 1` represents one pass of ADMM. -/
theorem corr_admmUpdate (hex : ExactSolver both lin) (hex' : Admm.ExactSolver both' lin') (hconv : qp.Convex)
    (hsig : 0 < cfg.sigma) (halpha : cfg.alpha = 1) {s : State K N M} {t : Admm.State K N M} {o : KktMat K N M}
    (ho : CleanCorner o)
    (hfact : s.fact = constructKkt both cfg.sigma qp.H qp.A s.rhoVecBox s.rhoInvVec o)
    (hpos : ∀ i, 0 < s.rhoVec i) (hposb : ∀ i, 0 < s.rhoVecBox i)
    (hinv : ∀ i, s.rhoInvVec i = (s.rhoVec i)⁻¹) (hinvb : ∀ i, s.rhoVecBoxInv i = (s.rhoVecBox i)⁻¹)
    (hfact' : ∃ o', t.fact = Admm.constructKkt both' cfg.sigma qp.H (Admm.constructA qp.A) t.rhoInvVec o')
    (hcorr : Corr s t) : Corr (admmUpdate lin cfg qp s) (Admm.admmUpdate lin' cfg qp t) := by
  obtain ⟨cx, cy, cz, cr, ci⟩ := hcorr
  have hposi : ∀ i, 0 < s.rhoInvVec i := fun i => by rw [hinv]; exact inv_pos.mpr (hpos i)
  have hposbi : ∀ i, 0 < s.rhoVecBoxInv i := fun i => by rw [hinvb]; exact inv_pos.mpr (hposb i)
  have hone : ∀ i, s.rhoVec i * s.rhoInvVec i = 1 := fun i => by
    rw [hinv]; exact mul_inv_cancel₀ (hpos i).ne'
  have honeb : ∀ i, s.rhoVecBox i * s.rhoVecBoxInv i = 1 := fun i => by
    rw [hinvb]; exact mul_inv_cancel₀ (hposb i).ne'
  have hposi' : ∀ i, 0 < t.rhoInvVec i := by
    intro i; rw [← ci]; rcases i with i | i
    · exact hposi i
    · exact hposbi i
  obtain ⟨xt, nu, hu, hxt, hzt⟩ := exact_step hex hconv hsig ho hfact hposi hposb
  obtain ⟨xt', nu', hu', hxt', hzt'⟩ := Admm.exact_step hex' hconv hsig hfact' hposi'
  obtain ⟨e1, e2⟩ := (hu xt nu).mpr ⟨rfl, rfl⟩
  have hz1 : ∀ i, t.z (Sum.inl i) = s.z i := fun i => by rw [← cz]; rfl
  have hz2 : ∀ i, t.z (Sum.inr i) = s.q i := fun i => by rw [← cz]; rfl
  have hi1 : ∀ i, t.rhoInvVec (Sum.inl i) = s.rhoInvVec i := fun i => by rw [← ci]; rfl
  have hi2 : ∀ i, t.rhoInvVec (Sum.inr i) = s.rhoVecBoxInv i := fun i => by rw [← ci]; rfl
  have hr1 : ∀ i, t.rhoVec (Sum.inl i) = s.rhoVec i := fun i => by rw [← cr]; rfl
  have hr2 : ∀ i, t.rhoVec (Sum.inr i) = s.rhoVecBox i := fun i => by rw [← cr]; rfl
  obtain ⟨f1, f2⟩ := (hu' xt (Sum.elim nu fun i => s.y (Sum.inr i) + s.rhoVecBox i * (xt i - s.q i))).mp ⟨by
    rw [stacked_transpose]
    funext i
    have h1 := congrFun e1 i
    simp only [Pi.add_apply, Pi.smul_apply, Pi.sub_apply, smul_eq_mul] at h1 ⊢
    have e3 : headM (Sum.elim nu fun i => s.y (Sum.inr i) + s.rhoVecBox i * (xt i - s.q i)) = nu := rfl
    rw [e3, ← cx]
    change _ + ((qp.Aᵀ *ᵥ nu) i + (s.y (Sum.inr i) + s.rhoVecBox i * (xt i - s.q i))) = _
    change _ = cfg.sigma * s.x i - qp.h i + s.rhoVecBox i * s.q i - s.y (Sum.inr i) at h1
    linear_combination h1, by
    intro i
    rw [stacked_mulVec, ← cy]
    rcases i with i | i
    · rw [hi1, hz1]; exact e2 i
    · rw [hi2, hz2]
      simp only [Sum.elim_inr]
      linear_combination (s.q i - xt i) * honeb i⟩
  have hxx : (admmUpdate lin cfg qp s).x = xt := by
    have : (admmUpdate lin cfg qp s).x = xUpdate cfg.alpha (admmUpdate lin cfg qp s).xTilde := rfl
    rw [this, halpha, hxt]
    funext i
    rw [xUpdate_apply]; ring
  have hp1 : ∀ i, Admm.projArg lin' cfg qp t (Sum.inl i) = projArg lin cfg qp s i := by
    intro i
    rw [Admm.projArg, projArg, hzt', hzt, ← f2, ← cy]
    beta_reduce
    rw [hi1, hz1, halpha]
    rfl
  have hp2 : ∀ i, Admm.projArg lin' cfg qp t (Sum.inr i) = projArgBox lin cfg qp s i := by
    intro i
    rw [Admm.projArg, projArgBox, hzt', hxx, ← f2, ← cy]
    beta_reduce
    rw [hi2, hz2, halpha]
    change 1 * (s.q i + s.rhoVecBoxInv i * (s.y (Sum.inr i) + s.rhoVecBox i * (xt i - s.q i) - s.y (Sum.inr i))) +
      ((1 - 1) * s.q i + s.rhoVecBoxInv i * s.y (Sum.inr i)) = xt i + s.rhoVecBoxInv i * s.y (Sum.inr i)
    linear_combination (xt i - s.q i) * honeb i
  have hz : (admmUpdate lin cfg qp s).aux = (Admm.admmUpdate lin' cfg qp t).z := by
    funext i
    rw [Admm.admmUpdate_z]
    rcases i with i | i
    · rw [hp1]; exact admmUpdate_z s i
    · rw [hp2]; exact admmUpdate_q s i
  refine ⟨?_, ?_, hz, cr, ci⟩
  · have : (Admm.admmUpdate lin' cfg qp t).x =
        fun i => cfg.alpha * (Admm.admmUpdate lin' cfg qp t).xTilde i + (1 - cfg.alpha) * t.x i := rfl
    rw [this, hxx, hxt', ← f1, halpha]
    funext i; ring
  · funext i
    have hone' : t.rhoVec i * t.rhoInvVec i = 1 := by
      rcases i with i | i
      · rw [hr1, hi1, hone]
      · rw [hr2, hi2, honeb]
    rw [Admm.admmUpdate_y _ _ hone', ← hz]
    rcases i with i | i
    · rw [hp1, hr1]; exact admmUpdate_yA _ _ (hone i)
    · rw [hp2, hr2]; exact admmUpdate_yB _ _ (honeb i)

theorem rhoEntry_eq (t : ConstraintType) (r : K) : rhoEntry t r = Admm.rhoEntry t r := by cases t <;> rfl

theorem corr_setup : Corr (setup both cfg qp xg yg old) (Admm.setup both' cfg qp xg yg old') where
  x := rfl
  y := rfl
  z := (stacked_mulVec qp.A xg).symm
  rho := by
    funext i
    rcases i with i | i <;> exact rhoEntry_eq _ _
  rhoInv := by
    funext i
    rcases i with i | i
    · exact congrArg (·⁻¹) (rhoEntry_eq (parseConstr qp.Alb qp.Aub i) cfg.rho)
    · exact congrArg (·⁻¹) (rhoEntry_eq (parseBox qp.xlb qp.xub i) cfg.rho)

/-- C61. With `alpha = 1`, a fixed step size and exact linear solves, boxADMM and ADMM started from the same guess have
the same primal and dual iterates (and boxADMM's `(z, q)` is ADMM's `z`) for ever. -/
theorem same_iterates_as_admm (hex : ExactSolver both lin) (hex' : Admm.ExactSolver both' lin') (hconv : qp.Convex)
    (hsig : 0 < cfg.sigma) (hrho : 0 < cfg.rho) (halpha : cfg.alpha = 1) (ho : CleanCorner old.kkt) (k : ℕ) :
    (iterate both lin cfg qp xg yg old k).x = (Admm.iterate both' lin' cfg qp xg yg old' k).x ∧
    (iterate both lin cfg qp xg yg old k).y = (Admm.iterate both' lin' cfg qp xg yg old' k).y ∧
    (iterate both lin cfg qp xg yg old k).aux = (Admm.iterate both' lin' cfg qp xg yg old' k).z := by
  have key : Corr (iterate both lin cfg qp xg yg old k) (Admm.iterate both' lin' cfg qp xg yg old' k) := by
    induction k with
    | zero => exact corr_setup
    | succ k ih =>
      obtain ⟨c1, c2, c3, c4, c5⟩ := iterate_const (both := both) (lin := lin) (cfg := cfg) (qp := qp) (xg := xg)
        (yg := yg) (old := old) k
      obtain ⟨d1, d2, d3⟩ := Admm.iterate_const (both := both') (lin := lin') (cfg := cfg) (qp := qp) (xg := xg)
        (yg := yg) (old := old') k
      have hs := stepInv_setup (both := both) (cfg := cfg) (qp := qp) (xg := xg) (yg := yg) (old := old)
      refine corr_admmUpdate hex hex' hconv hsig halpha ho ?_ ?_ ?_ ?_ ?_ ⟨old'.kkt, ?_⟩ ih
      · rw [c5, c3, c2]; rfl
      · rw [c1]; exact hs.rhoVec_pos hrho
      · rw [c3]; exact hs.rhoVecBox_pos hrho
      · intro i; rw [c2, c1]; rfl
      · intro i; rw [c4, c3]; rfl
      · rw [d3, d2]; rfl
  exact ⟨key.x, key.y, key.z⟩

end Field

section Real
variable {N M : ℕ}
variable {both : Bool} {lin : KktMat ℝ N M → (KktIdx N M → ℝ) → (KktIdx N M → ℝ)} {sq : ℝ → ℝ} {cfg : Settings ℝ}
  {qp : QP ℝ N M} {xg : Fin N → ℝ} {yg : Fin M ⊕ Fin N → ℝ} {old : State ℝ N M}

/-- The matrix inverse, as an exact solver for ADMM. -/
theorem exists_exact : ∃ l : Admm.KktMat ℝ N M → (Admm.KktIdx N M → ℝ) → (Admm.KktIdx N M → ℝ),
    Admm.ExactSolver true l := by
  refine ⟨fun A b => (Admm.effective true A)⁻¹ *ᵥ b, fun A b hdet => ?_⟩
  rw [Matrix.mulVec_mulVec, Matrix.mul_nonsing_inv _ (isUnit_iff_ne_zero.mpr hdet), Matrix.one_mulVec]

/-- C62 (iterates). With `alpha = 1`, boxADMM's iterates converge to a KKT point of every convex QP that has one. -/
theorem iterates_converge_to_kkt (hex : ExactSolver both lin) (hconv : qp.Convex) (hkkt : ∃ x y, qp.KKT x y)
    (hsig : 0 < cfg.sigma) (hrho : 0 < cfg.rho) (halpha : cfg.alpha = 1) (ho : CleanCorner old.kkt) :
    ∃ xl yl, qp.KKT xl yl ∧ Tendsto (fun k => (iterate both lin cfg qp xg yg old k).x) atTop (𝓝 xl) ∧
      Tendsto (fun k => (iterate both lin cfg qp xg yg old k).y) atTop (𝓝 yl) := by
  obtain ⟨l, hl⟩ := exists_exact (N := N) (M := M)
  obtain ⟨xl, yl, h1, h2, h3⟩ := Admm.iterates_converge_to_kkt (xg := xg) (yg := yg)
    (old := Admm.fresh cfg 0 0 0) hl hconv hkkt hsig hrho (by rw [halpha]; norm_num) (by rw [halpha]; norm_num)
  have key := same_iterates_as_admm (xg := xg) (yg := yg) (old' := Admm.fresh cfg 0 0 0) hex hl hconv hsig hrho
    halpha ho
  exact ⟨xl, yl, h1, h2.congr fun k => (key k).1.symm, h3.congr fun k => (key k).2.1.symm⟩

theorem infNorm_parts_le (st : State ℝ N M) :
    infNorm (qp.A *ᵥ st.x - st.z) + infNorm (st.x - st.q) ≤ 2 * infNorm (qp.rows st.x - st.aux) := by
  have : qp.rows st.x - st.aux = Sum.elim (qp.A *ᵥ st.x - st.z) (st.x - st.q) := by
    funext i; rcases i with i | i <;> rfl
  rw [this, infNorm_sumElim]
  linarith [le_max_left (infNorm (qp.A *ᵥ st.x - st.z)) (infNorm (st.x - st.q)),
    le_max_right (infNorm (qp.A *ᵥ st.x - st.z)) (infNorm (st.x - st.q))]

theorem solve_defined (h : cfg.adaptiveRho = false ∨ cfg.adaptiveRhoInterval ≠ 0) :
    (solve both lin sq cfg qp xg yg old).isSome := by
  have key : ∀ n it st, (loop lin sq cfg qp n it st).isSome := by
    intro n
    induction n with
    | zero => intro it st; simp [loop]
    | succ n ih =>
      intro it st
      simp only [loop]
      split
      · rename_i hb
        rcases body_cases (lin := lin) (sq := sq) (cfg := cfg) (qp := qp) it st with
          ⟨s', hb', _⟩ | ⟨_, h1, h2⟩ | ⟨s2, _, _, hb' | ⟨_, _, _, _, hb'⟩⟩
        · rw [hb'] at hb; cases hb
        · rcases h with h | h
          · rw [h] at h1; cases h1
          · exact absurd h2 h
        · rw [hb'] at hb; cases hb
        · rw [hb'] at hb; cases hb
      · simp
      · exact ih _ _
  unfold solve
  split
  · rename_i hl
    have := key cfg.maxIter.toNat 1 (setup both cfg qp xg yg old)
    rw [hl] at this
    cases this
  · simp

/-- If boxADMM gives up, the residual tests failed at every pass at which they were made. -/
theorem exceeded_all_checks_failed {st : State ℝ N M} (h : solve both lin sq cfg qp xg yg old = some st)
    (hs : st.info.status = .MAX_ITER_EXCEEDED) (k : ℕ) (hk : 1 ≤ k) (hk' : (k : ℤ) ≤ cfg.maxIter)
    (hc : cfg.checkTermination ≠ 0) (hd : cfg.checkTermination ∣ (k : ℤ)) :
    ∃ s, AfterPass both lin sq cfg qp xg yg old k s ∧
      ¬ (infNorm (qp.A *ᵥ s.x - s.z) + infNorm (s.x - s.q) ≤
          cfg.epsAbs + cfg.epsRel * boxPrimalScale qp s.x s.z ∧
        infNorm (qp.lagrangianGradient s.x s.y) ≤ cfg.epsAbs + cfg.epsRel * Admm.dualScale qp s.x s.y) := by
  rcases solve_cases h with ⟨j, s, s', hr, hb, hj, rfl⟩ | ⟨s, hr, rfl⟩
  · obtain ⟨hc, rfl, _⟩ := brk_spec hb
    simp at hs
  · have pre : ∀ n s, Running both lin sq cfg qp xg yg old n s → ∀ m, m < n →
        ∃ t t', Running both lin sq cfg qp xg yg old m t ∧ body lin sq cfg qp (m + 1 : ℕ) t = .cont t' := by
      intro n s hr
      induction hr with
      | init => intro m hm; omega
      | @cont k st st' h hb ih =>
        intro m hm
        rcases Nat.lt_succ_iff_lt_or_eq.mp hm with h1 | rfl
        · exact ih m h1
        · exact ⟨st, st', h, hb⟩
    obtain ⟨m, rfl⟩ : ∃ m, k = m + 1 := ⟨k - 1, by omega⟩
    obtain ⟨t, t', ht, hb⟩ := pre _ _ hr m (by omega)
    refine ⟨t', ⟨m, t, rfl, ht, Or.inl hb⟩, ?_⟩
    have hs := body_sameIter (Or.inl hb)
    rw [hs.1, hs.2.1, hs.2.2.1, hs.2.2.2.1, ← terminationCriteria_iff]
    have hck : checkNow cfg ((m + 1 : ℕ) : ℤ) = true := by
      simp only [checkNow, Bool.and_eq_true, decide_eq_true_eq]
      exact ⟨hc, Int.tmod_eq_zero_of_dvd hd⟩
    rcases body_cases (lin := lin) (sq := sq) (cfg := cfg) (qp := qp) ((m + 1 : ℕ) : ℤ) t with
      ⟨s1, hb', h1, h2, h3⟩ | ⟨hb', _⟩ | ⟨s2, hs2, h2, hb' | ⟨_, _, _, _, hb'⟩⟩
    · rw [hb'] at hb; cases hb
    · rw [hb'] at hb; cases hb
    · obtain ⟨h3, h4⟩ := h2 hck
      rw [h3] at h4; rw [h4]; simp
    · obtain ⟨h3, h4⟩ := h2 hck
      rw [h3] at h4; rw [h4]; simp

/-- C62 (solve). With `alpha = 1` and a fixed step size, boxADMM returns SOLVED on every convex QP with a KKT point, for
every positive absolute tolerance, once the iteration limit is large enough. -/
theorem eventually_solved (hex : ExactSolver both lin) (hconv : qp.Convex) (hkkt : ∃ x y, qp.KKT x y)
    (hsig : 0 < cfg.sigma) (hrho : 0 < cfg.rho) (halpha : cfg.alpha = 1) (ho : CleanCorner old.kkt)
    (hadapt : cfg.adaptiveRho = false) (hcheck : cfg.checkTermination ≠ 0) (heps : 0 < cfg.epsAbs)
    (hrel : 0 ≤ cfg.epsRel) :
    ∃ n : ℤ, ∀ maxIter ≥ n, ∃ st, solve both lin sq { cfg with maxIter := maxIter } qp xg yg old = some st ∧
      st.info.status = .SOLVED := by
  obtain ⟨l, hl⟩ := exists_exact (N := N) (M := M)
  obtain ⟨r1, r2⟩ := Admm.residuals_tendsto_zero (xg := xg) (yg := yg)
    (old := Admm.fresh cfg 0 0 0) hl hconv hkkt hsig hrho (by rw [halpha]; norm_num) (by rw [halpha]; norm_num)
  have key := same_iterates_as_admm (xg := xg) (yg := yg) (old' := Admm.fresh cfg 0 0 0) hex hl hconv hsig hrho
    halpha ho
  have e1 := r1.eventually (ge_mem_nhds (half_pos heps))
  have e2 := r2.eventually (ge_mem_nhds heps)
  obtain ⟨k0, hk0⟩ := eventually_atTop.mp (e1.and e2)
  set k := cfg.checkTermination.natAbs * (k0 + 1) with hk
  have hc1 : 1 ≤ cfg.checkTermination.natAbs := Nat.one_le_iff_ne_zero.mpr (Int.natAbs_ne_zero.mpr hcheck)
  have hkk : k0 + 1 ≤ k := by rw [hk]; exact Nat.le_mul_of_pos_left _ hc1
  refine ⟨(k : ℤ), fun maxIter hm => ?_⟩
  obtain ⟨st, hst⟩ := Option.isSome_iff_exists.mp (solve_defined (both := both) (lin := lin) (sq := sq)
    (cfg := { cfg with maxIter := maxIter }) (qp := qp) (xg := xg) (yg := yg) (old := old) (Or.inl hadapt))
  refine ⟨st, hst, ?_⟩
  rcases status_iter hst with h | h
  · exact h.1
  · exfalso
    obtain ⟨s, hs, hns⟩ := exceeded_all_checks_failed hst h.1 k (by omega) hm hcheck
      (Int.natAbs_dvd.mp ⟨((k0 + 1 : ℕ) : ℤ), by rw [hk]; push_cast; rfl⟩)
    have hcore := afterPass_iterate (cfg := { cfg with maxIter := maxIter }) hadapt hs
    have hit : ∀ j, iterate both lin { cfg with maxIter := maxIter } qp xg yg old j =
        iterate both lin cfg qp xg yg old j := by
      intro j
      induction j with
      | zero => rfl
      | succ j ih => simp only [iterate, ih]; rfl
    rw [hit] at hcore
    obtain ⟨g1, g2, g3⟩ := key k
    have haux : s.aux = (iterate both lin cfg qp xg yg old k).aux := by
      unfold State.aux; rw [hcore.2.2.1, hcore.2.2.2.1]
    have hb := hk0 k (by omega)
    rw [← g1, ← g2, ← g3, ← haux, ← hcore.1, ← hcore.2.1] at hb
    apply hns
    refine ⟨(infNorm_parts_le s).trans ?_, hb.2.trans ?_⟩
    · have : 0 ≤ boxPrimalScale qp s.x s.z := le_trans (infNorm_nonneg _) (le_max_left _ _)
      have := mul_nonneg hrel this
      change _ ≤ cfg.epsAbs + cfg.epsRel * _
      linarith [hb.1]
    · have : 0 ≤ Admm.dualScale qp s.x s.y := le_trans (infNorm_nonneg _) (le_max_left _ _)
      have := mul_nonneg hrel this
      change cfg.epsAbs ≤ cfg.epsAbs + cfg.epsRel * _
      linarith

/-! ## Non-vacuity -/

/-- The default settings and a new solver object meet the hypotheses on the settings and on `old`. -/
example : 0 < (Settings.default : Settings ℝ).sigma ∧ 0 < (Settings.default : Settings ℝ).rho ∧
    (Settings.default : Settings ℝ).alpha = 1 ∧ (Settings.default : Settings ℝ).adaptiveRho = false ∧
    (Settings.default : Settings ℝ).checkTermination ≠ 0 ∧ 0 < (Settings.default : Settings ℝ).epsAbs ∧
    CleanCorner (fresh (N := N) (M := M) (Settings.default : Settings ℝ) 0 0 0).kkt := by
  refine ⟨?_, ?_, rfl, rfl, ?_, ?_, cleanCorner_fresh _ _ _ _⟩ <;> norm_num [Settings.default]

/-- An exact solver for boxADMM exists in every dimension; QPs with a KKT point: see `Verif.Props.AdmmConvergence`. -/
example (both : Bool) : ExactSolver (K := ℝ) (N := N) (M := M) both (fun A b => (effective both A)⁻¹ *ᵥ b) := by
  intro A b hdet
  rw [Matrix.mulVec_mulVec, Matrix.mul_nonsing_inv _ (isUnit_iff_ne_zero.mpr hdet), Matrix.one_mulVec]

end Real
end PolyMPC.BoxAdmm
