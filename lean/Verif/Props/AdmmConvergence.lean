import Verif.Props.AdmmOptimality
import Verif.Lemmas.AdmmLimit

/-!
# Property C13: ADMM converges on every convex QP that has a KKT point
-/

set_option linter.unusedSectionVars false

namespace PolyMPC.Admm
open Matrix PolyMPC.Spec PolyMPC.QPBase Filter Topology

section Field
variable {K : Type*} [Field K] [LinearOrder K] [IsStrictOrderedRing K] {N M : ℕ}
variable {both : Bool} {lin : KktMat K N M → (KktIdx N M → K) → (KktIdx N M → K)} {sq : K → K} {cfg : Settings K}
  {qp : QP K N M} {xg : Fin N → K} {yg : Fin M ⊕ Fin N → K} {old : State K N M}

/-- The `k`-th iterate of ADMM with a fixed step size when nothing stops the loop: `admm.hpp:143-163` applied `k` times
to the state before the loop. -/
def iterate (both : Bool) (lin : KktMat K N M → (KktIdx N M → K) → (KktIdx N M → K)) (cfg : Settings K)
    (qp : QP K N M) (xg : Fin N → K) (yg : Fin M ⊕ Fin N → K) (old : State K N M) : ℕ → State K N M
  | 0 => setup both cfg qp xg yg old
  | k + 1 => admmUpdate lin cfg qp (iterate both lin cfg qp xg yg old k)

/-- Agreement in everything the next iterate depends on. -/
def Core (s t : State K N M) : Prop := s.x = t.x ∧ s.y = t.y ∧ s.z = t.z ∧ s.rhoVec = t.rhoVec ∧
  s.rhoInvVec = t.rhoInvVec ∧ s.fact = t.fact

theorem core_admmUpdate {s t : State K N M} (h : Core s t) :
    Core (admmUpdate lin cfg qp s) (admmUpdate lin cfg qp t) := by
  obtain ⟨h1, h2, h3, h4, h5, h6⟩ := h
  simp only [Core, admmUpdate, kktRhs, h1, h2, h3, h4, h5, h6, and_self]

theorem core_body (ha : cfg.adaptiveRho = false) {it : ℤ} {s t : State K N M}
    (h : body lin sq cfg qp it s = .cont t ∨ body lin sq cfg qp it s = .brk t) :
    Core t (admmUpdate lin cfg qp s) := by
  rcases body_cases (lin := lin) (sq := sq) (cfg := cfg) (qp := qp) it s with
    ⟨s', hb, _, rfl, _⟩ | ⟨hb, _⟩ | ⟨s2, hs2, _, hb | ⟨ht, _⟩⟩
  · rw [hb] at h
    rcases h with h | h <;> cases h
    exact ⟨rfl, rfl, rfl, rfl, rfl, rfl⟩
  · rw [hb] at h; rcases h with h | h <;> cases h
  · rw [hb] at h
    rcases h with h | h <;> cases h
    rcases hs2 with rfl | rfl <;> exact ⟨rfl, rfl, rfl, rfl, rfl, rfl⟩
  · rw [ha] at ht; cases ht

theorem Core.trans {r s t : State K N M} (h1 : Core r s) (h2 : Core s t) : Core r t :=
  ⟨h1.1.trans h2.1, h1.2.1.trans h2.2.1, h1.2.2.1.trans h2.2.2.1, h1.2.2.2.1.trans h2.2.2.2.1,
    h1.2.2.2.2.1.trans h2.2.2.2.2.1, h1.2.2.2.2.2.trans h2.2.2.2.2.2⟩

/-- Without step-size adaptation, the states of a run are the iterates. -/
theorem running_iterate (ha : cfg.adaptiveRho = false) {k : ℕ} {st : State K N M}
    (h : Running both lin sq cfg qp xg yg old k st) : Core st (iterate both lin cfg qp xg yg old k) := by
  induction h with
  | init => exact ⟨rfl, rfl, rfl, rfl, rfl, rfl⟩
  | cont _ hb ih => exact (core_body ha (Or.inl hb)).trans (core_admmUpdate ih)

theorem afterPass_iterate (ha : cfg.adaptiveRho = false) {k : ℕ} {st : State K N M}
    (h : AfterPass both lin sq cfg qp xg yg old k st) : Core st (iterate both lin cfg qp xg yg old k) := by
  obtain ⟨k', st', rfl, hr, hb⟩ := h
  exact (core_body ha hb).trans (core_admmUpdate (running_iterate ha hr))

/-- The step sizes and the matrix never change along the iterates. -/
theorem iterate_const (k : ℕ) :
    (iterate both lin cfg qp xg yg old k).rhoVec = (setup both cfg qp xg yg old).rhoVec ∧
    (iterate both lin cfg qp xg yg old k).rhoInvVec = (setup both cfg qp xg yg old).rhoInvVec ∧
    (iterate both lin cfg qp xg yg old k).fact = (setup both cfg qp xg yg old).fact := by
  induction k with
  | zero => exact ⟨rfl, rfl, rfl⟩
  | succ k ih => exact ih

theorem setup_rhoVec_pos (hrho : 0 < cfg.rho) (i : Fin M ⊕ Fin N) : 0 < (setup both cfg qp xg yg old).rhoVec i :=
  (stepInv_setup (both := both) (cfg := cfg) (qp := qp) (xg := xg) (yg := yg) (old := old)).rhoVec_pos hrho i

theorem cone_admmUpdate (hc : qp.Consistent) {st : State K N M} (hpos : ∀ i, 0 < st.rhoVec i)
    (hinv : ∀ i, st.rhoInvVec i = (st.rhoVec i)⁻¹) :
    QP.InNormalCone qp.lower qp.upper (admmUpdate lin cfg qp st).z (admmUpdate lin cfg qp st).y := by
  intro i
  have hone : st.rhoVec i * st.rhoInvVec i = 1 := by rw [hinv]; exact mul_inv_cancel₀ (hpos i).ne'
  rw [admmUpdate_y _ _ hone, admmUpdate_z]
  refine ⟨clip_mem (hc i), fun hy => ?_, fun hy => ?_⟩
  · have := (mul_pos_iff_of_pos_left (hpos i)).mp hy
    exact clip_of_lt (by linarith)
  · have := (pos_iff_neg_of_mul_neg hy).mp (hpos i)
    exact clip_of_gt (hc i) (by linarith)

/-- With an exact linear solver, a pass is a step of over-relaxed ADMM in the mathematical sense. -/
theorem step_admmUpdate (hex : ExactSolver both lin) (hconv : qp.Convex) (hsig : 0 < cfg.sigma) {st : State K N M}
    (hfact : ∃ o, st.fact = constructKkt both cfg.sigma qp.H (constructA qp.A) st.rhoInvVec o)
    (hpos : ∀ i, 0 < st.rhoVec i) (hinv : ∀ i, st.rhoInvVec i = (st.rhoVec i)⁻¹) :
    AdmmMath.Step qp.H qp.h (constructA qp.A) cfg.sigma cfg.alpha st.rhoVec st.x st.z st.y
      (admmUpdate lin cfg qp st).xTilde (admmUpdate lin cfg qp st).x (admmUpdate lin cfg qp st).z
      (admmUpdate lin cfg qp st).y := by
  have hposi : ∀ i, 0 < st.rhoInvVec i := fun i => by rw [hinv]; exact inv_pos.mpr (hpos i)
  have hone : ∀ i, st.rhoVec i * st.rhoInvVec i = 1 := fun i => by
    rw [hinv]; exact mul_inv_cancel₀ (hpos i).ne'
  obtain ⟨xt, nu, huniq, hxt, hzt⟩ := exact_step hex hconv hsig hfact hposi
  obtain ⟨e1, e2⟩ := (huniq xt nu).mpr ⟨rfl, rfl⟩
  have hnu : (fun j => st.y j + st.rhoVec j * ((constructA qp.A *ᵥ xt) j - st.z j)) = nu := by
    funext j
    linear_combination st.rhoVec j * e2 j + (nu j - st.y j) * hone j
  have hzt' : ∀ j, st.z j + st.rhoInvVec j * (nu j - st.y j) = (constructA qp.A *ᵥ xt) j := by
    intro j; linarith [e2 j]
  constructor
  · intro i
    rw [hxt, hnu]
    have := congrFun e1 i
    simp only [Pi.add_apply, Pi.sub_apply, Pi.smul_apply, smul_eq_mul] at this
    linarith
  · intro i
    have : (admmUpdate lin cfg qp st).x i =
        cfg.alpha * (admmUpdate lin cfg qp st).xTilde i + (1 - cfg.alpha) * st.x i := rfl
    rw [this]; ring
  · intro j
    rw [admmUpdate_y _ _ (hone j), projArg, hzt, hxt, ← hzt' j]
    linear_combination st.y j * hone j

end Field

section Real
variable {N M : ℕ}
variable {both : Bool} {lin : KktMat ℝ N M → (KktIdx N M → ℝ) → (KktIdx N M → ℝ)} {sq : ℝ → ℝ} {cfg : Settings ℝ}
  {qp : QP ℝ N M} {xg : Fin N → ℝ} {yg : Fin M ⊕ Fin N → ℝ} {old : State ℝ N M}

theorem consistent_of_kkt {x : Fin N → ℝ} {y : Fin M ⊕ Fin N → ℝ} (h : qp.KKT x y) : qp.Consistent :=
  fun i => (h.2 i).1.1.trans (h.2 i).1.2

/-- From the first pass on, the iterates are an infinite ADMM run in the mathematical sense. -/
theorem iterate_run (hex : ExactSolver both lin) (hconv : qp.Convex) (hc : qp.Consistent) (hsig : 0 < cfg.sigma)
    (hrho : 0 < cfg.rho) :
    AdmmMath.Run qp.H qp.h (constructA qp.A) cfg.sigma cfg.alpha (setup both cfg qp xg yg old).rhoVec qp.lower qp.upper
      (fun k => (iterate both lin cfg qp xg yg old (k + 1)).x) (fun k => (iterate both lin cfg qp xg yg old (k + 1)).z)
      (fun k => (iterate both lin cfg qp xg yg old (k + 1)).y)
      (fun k => (iterate both lin cfg qp xg yg old (k + 2)).xTilde) := by
  have hp := setup_rhoVec_pos (both := both) (qp := qp) (xg := xg) (yg := yg) (old := old) hrho
  constructor
  · intro k
    obtain ⟨c1, c2, c3⟩ := iterate_const (both := both) (lin := lin) (cfg := cfg) (qp := qp) (xg := xg) (yg := yg)
      (old := old) (k + 1)
    have := step_admmUpdate (st := iterate both lin cfg qp xg yg old (k + 1)) hex hconv hsig
      ⟨old.kkt, by rw [c3, c2]; rfl⟩ (by rw [c1]; exact hp) (by intro i; rw [c1, c2]; rfl)
    rw [c1] at this
    exact this
  · intro k
    obtain ⟨c1, c2, c3⟩ := iterate_const (both := both) (lin := lin) (cfg := cfg) (qp := qp) (xg := xg) (yg := yg)
      (old := old) k
    exact cone_admmUpdate (st := iterate both lin cfg qp xg yg old k) hc (by rw [c1]; exact hp)
      (by intro i; rw [c1, c2]; rfl)

theorem kkt_stat {x : Fin N → ℝ} {y : Fin M ⊕ Fin N → ℝ} (h : qp.KKT x y) (i : Fin N) :
    (qp.H *ᵥ x) i + qp.h i + ((constructA qp.A)ᵀ *ᵥ y) i = 0 := by
  have := congrFun h.1 i
  rw [QP.lagrangianGradient_eq] at this
  exact this

theorem kkt_cone {x : Fin N → ℝ} {y : Fin M ⊕ Fin N → ℝ} (h : qp.KKT x y) :
    QP.InNormalCone qp.lower qp.upper (constructA qp.A *ᵥ x) y := by
  have := h.2
  rw [QP.rows_eq] at this
  exact this

theorem infNorm_tendsto {ι : Type*} [Fintype ι] {v : ℕ → ι → ℝ} (h : ∀ i, Tendsto (fun k => v k i) atTop (𝓝 0)) :
    Tendsto (fun k => infNorm (v k)) atTop (𝓝 0) := by
  rw [Metric.tendsto_atTop]
  intro e he
  have : ∀ᶠ k in atTop, ∀ i, |v k i| ≤ e / 2 := by
    rw [eventually_all]
    intro i
    have := (Metric.tendsto_atTop.mp (h i)) (e / 2) (by linarith)
    obtain ⟨k0, hk0⟩ := this
    filter_upwards [eventually_ge_atTop k0] with k hk
    have := hk0 k hk
    rw [Real.dist_eq, sub_zero] at this
    exact this.le
  obtain ⟨k0, hk0⟩ := eventually_atTop.mp this
  refine ⟨k0, fun k hk => ?_⟩
  rw [Real.dist_eq, sub_zero, abs_of_nonneg (infNorm_nonneg _)]
  exact lt_of_le_of_lt ((infNorm_le_iff _).mpr ⟨by linarith, hk0 k hk⟩) (by linarith)

/-- C13 (residuals). For a convex QP with a KKT point, exact linear solves, `0 < alpha < 2` and positive `sigma`, `rho`,
the primal and dual residuals of the iterates tend to zero, from every starting point. -/
theorem residuals_tendsto_zero (hex : ExactSolver both lin) (hconv : qp.Convex) (hkkt : ∃ x y, qp.KKT x y)
    (hsig : 0 < cfg.sigma) (hrho : 0 < cfg.rho) (ha : 0 < cfg.alpha) (ha2 : cfg.alpha < 2) :
    Tendsto (fun k => infNorm (qp.rows (iterate both lin cfg qp xg yg old k).x -
      (iterate both lin cfg qp xg yg old k).z)) atTop (𝓝 0) ∧
    Tendsto (fun k => infNorm (qp.lagrangianGradient (iterate both lin cfg qp xg yg old k).x
      (iterate both lin cfg qp xg yg old k).y)) atTop (𝓝 0) := by
  obtain ⟨xs, ys, hk⟩ := hkkt
  have hrun := iterate_run (xg := xg) (yg := yg) (old := old) hex hconv (consistent_of_kkt hk) hsig hrho
  obtain ⟨r1, r2⟩ := AdmmMath.residuals_tendsto hconv.2 ha ha2 hsig (setup_rhoVec_pos hrho) hrun (kkt_stat hk)
    (kkt_cone hk)
  constructor
  · rw [← tendsto_add_atTop_iff_nat 1]
    refine infNorm_tendsto fun j => (r1 j).congr fun k => ?_
    rw [QP.rows_eq]
    rfl
  · rw [← tendsto_add_atTop_iff_nat 1]
    refine infNorm_tendsto fun i => (r2 i).congr fun k => ?_
    rw [QP.lagrangianGradient_eq]
    rfl

/-- C13 (iterates). Under the same hypotheses the iterates converge to a KKT point of the QP. -/
theorem iterates_converge_to_kkt (hex : ExactSolver both lin) (hconv : qp.Convex) (hkkt : ∃ x y, qp.KKT x y)
    (hsig : 0 < cfg.sigma) (hrho : 0 < cfg.rho) (ha : 0 < cfg.alpha) (ha2 : cfg.alpha < 2) :
    ∃ xl yl, qp.KKT xl yl ∧ Tendsto (fun k => (iterate both lin cfg qp xg yg old k).x) atTop (𝓝 xl) ∧
      Tendsto (fun k => (iterate both lin cfg qp xg yg old k).y) atTop (𝓝 yl) := by
  obtain ⟨xs, ys, hk⟩ := hkkt
  have hrun := iterate_run (xg := xg) (yg := yg) (old := old) hex hconv (consistent_of_kkt hk) hsig hrho
  obtain ⟨xl, yl, h1, h2, h3, h4, _⟩ := AdmmMath.iterates_converge hconv.2 ha ha2 hsig (setup_rhoVec_pos hrho) hrun
    (kkt_stat hk) (kkt_cone hk)
  refine ⟨xl, yl, ⟨?_, ?_⟩, (tendsto_add_atTop_iff_nat 1).mp h3, (tendsto_add_atTop_iff_nat 1).mp h4⟩
  · rw [QP.lagrangianGradient_eq]
    funext i
    exact h1 i
  · rw [QP.rows_eq]; exact h2

/-- C13 (solve). For every positive absolute tolerance there is an iteration limit from which on ADMM returns SOLVED. -/
theorem eventually_solved (hex : ExactSolver both lin) (hconv : qp.Convex) (hkkt : ∃ x y, qp.KKT x y)
    (hsig : 0 < cfg.sigma) (hrho : 0 < cfg.rho) (ha : 0 < cfg.alpha) (ha2 : cfg.alpha < 2)
    (hadapt : cfg.adaptiveRho = false) (hcheck : cfg.checkTermination ≠ 0) (heps : 0 < cfg.epsAbs)
    (hrel : 0 ≤ cfg.epsRel) :
    ∃ n : ℤ, ∀ maxIter ≥ n, ∃ st, solve both lin sq { cfg with maxIter := maxIter } qp xg yg old = some st ∧
      st.info.status = .SOLVED := by
  obtain ⟨r1, r2⟩ := residuals_tendsto_zero (xg := xg) (yg := yg) (old := old) hex hconv hkkt hsig hrho ha ha2
  have e1 := r1.eventually (ge_mem_nhds heps)
  have e2 := r2.eventually (ge_mem_nhds heps)
  obtain ⟨k0, hk0⟩ := eventually_atTop.mp (e1.and e2)
  set k := cfg.checkTermination.natAbs * (k0 + 1) with hk
  have hc1 : 1 ≤ cfg.checkTermination.natAbs := Nat.one_le_iff_ne_zero.mpr (Int.natAbs_ne_zero.mpr hcheck)
  have hkk : k0 + 1 ≤ k := by rw [hk]; exact Nat.le_mul_of_pos_left _ hc1
  refine ⟨(k : ℤ), fun maxIter hm => ?_⟩
  obtain ⟨st, hst⟩ := Option.isSome_iff_exists.mp (solve_defined (both := both) (lin := lin) (sq := sq)
    (cfg := { cfg with maxIter := maxIter }) (qp := qp) (xg := xg) (yg := yg) (old := old) (Or.inl hadapt))
  refine ⟨st, hst, ?_⟩
  rcases status_cases hst with h | h
  · exact h
  · exfalso
    obtain ⟨s, hs, hns⟩ := exceeded_all_checks_failed hst h k (by omega) hm hcheck
      (Int.natAbs_dvd.mp ⟨((k0 + 1 : ℕ) : ℤ), by rw [hk]; push_cast; rfl⟩)
    have hcore := afterPass_iterate (cfg := { cfg with maxIter := maxIter }) hadapt hs
    have hit : ∀ j, iterate both lin { cfg with maxIter := maxIter } qp xg yg old j =
        iterate both lin cfg qp xg yg old j := by
      intro j
      induction j with
      | zero => rfl
      | succ j ih => simp only [iterate, ih]; rfl
    rw [hit] at hcore
    have hb := hk0 k (by omega)
    rw [← hcore.1, ← hcore.2.1, ← hcore.2.2.1] at hb
    apply hns
    refine ⟨hb.1.trans ?_, hb.2.trans ?_⟩
    · have : 0 ≤ primalScale qp s.x s.z := le_trans (infNorm_nonneg _) (le_max_left _ _)
      have := mul_nonneg hrel this
      change cfg.epsAbs ≤ cfg.epsAbs + cfg.epsRel * _
      linarith
    · have : 0 ≤ dualScale qp s.x s.y := le_trans (infNorm_nonneg _) (le_max_left _ _)
      have := mul_nonneg hrel this
      change cfg.epsAbs ≤ cfg.epsAbs + cfg.epsRel * _
      linarith

/-! ## Non-vacuity -/

/-- A QP over the reals that meets the hypotheses of C13 for every `n`: minimise `½|x|²` with `-1 ≤ x ≤ 1` (`M = 0`). -/
example (n : ℕ) : ∃ (qp : QP ℝ n 0) (cfg : Settings ℝ) (lin : KktMat ℝ n 0 → (KktIdx n 0 → ℝ) → (KktIdx n 0 → ℝ)),
    ExactSolver true lin ∧ qp.Convex ∧ (∃ x y, qp.KKT x y) ∧ 0 < cfg.sigma ∧ 0 < cfg.rho ∧ 0 < cfg.alpha ∧
    cfg.alpha < 2 ∧ cfg.adaptiveRho = false ∧ cfg.checkTermination ≠ 0 ∧ 0 < cfg.epsAbs ∧ 0 ≤ cfg.epsRel := by
  refine ⟨⟨1, 0, 0, 0, 0, fun _ => -1, fun _ => 1⟩, Settings.default, fun A b => (effective true A)⁻¹ *ᵥ b, ?_,
    ⟨Matrix.transpose_one, fun x => ?_⟩, ⟨0, 0, ?_, ?_⟩, ?_⟩
  · intro A b hdet
    rw [Matrix.mulVec_mulVec, Matrix.mul_nonsing_inv _ (isUnit_iff_ne_zero.mpr hdet), Matrix.one_mulVec]
  · rw [Matrix.one_mulVec]; exact Finset.sum_nonneg fun i _ => mul_self_nonneg _
  · funext i
    simp [QP.lagrangianGradient, QP.yA, QP.yBox]
  · rintro (i | i)
    · exact i.elim0
    · simp [QP.lower, QP.upper, QP.rows]
  · norm_num [Settings.default]

end Real
end PolyMPC.Admm
