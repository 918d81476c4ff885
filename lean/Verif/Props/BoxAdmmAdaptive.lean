import Verif.Props.AdmmBound
import Verif.Props.BoxAdmmRefines

/-!
# Properties C200 and C201: boxADMM with `alpha = 1`, step-size adaptation and a bound for the number of iterations

The analogues of C189 and C190. With `alpha = 1` a pass of boxADMM is a step of ADMM in the mathematical sense, whatever the step sizes are.
-/

set_option linter.unusedSectionVars false

namespace PolyMPC.BoxAdmm
open Matrix PolyMPC.Spec PolyMPC.QPBase Filter Topology

section Real
variable {N M : ℕ}
variable {both : Bool} {lin : KktMat ℝ N M → (KktIdx N M → ℝ) → (KktIdx N M → ℝ)} {sq : ℝ → ℝ} {cfg : Settings ℝ}
  {qp : QP ℝ N M} {xg : Fin N → ℝ} {yg : Fin M ⊕ Fin N → ℝ} {old : State ℝ N M}

/-- A run is determined by the number of passes. -/
theorem running_unique {k : ℕ} {s t : State ℝ N M} (hs : Running both lin sq cfg qp xg yg old k s)
    (ht : Running both lin sq cfg qp xg yg old k t) : s = t := by
  induction k generalizing s t with
  | zero => cases hs; cases ht; rfl
  | succ k ih =>
    cases hs with
    | cont h1 b1 =>
      cases ht with
      | cont h2 b2 =>
        have := ih h1 h2
        subst this
        rw [b1] at b2
        injection b2

/-- A run with `k` passes has shorter runs as prefixes. -/
theorem running_prefix {k : ℕ} {s : State ℝ N M} (hs : Running both lin sq cfg qp xg yg old k s) :
    ∀ j ≤ k, ∃ t, Running both lin sq cfg qp xg yg old j t := by
  induction hs with
  | init => intro j hj; obtain rfl : j = 0 := by omega
            exact ⟨_, Running.init⟩
  | @cont k st st' h hb ih =>
    intro j hj
    rcases Nat.lt_or_ge k j with h1 | h1
    · obtain rfl : j = k + 1 := by omega
      exact ⟨_, Running.cont h hb⟩
    · exact ih j h1

/-- The iteration limit does not influence the passes. -/
theorem running_maxIter {m : ℤ} {k : ℕ} {s : State ℝ N M} :
    Running both lin sq { cfg with maxIter := m } qp xg yg old k s ↔ Running both lin sq cfg qp xg yg old k s := by
  constructor
  · intro h
    induction h with
    | init => exact Running.init
    | cont _ hb ih => exact Running.cont ih hb
  · intro h
    induction h with
    | init => exact Running.init (cfg := { cfg with maxIter := m })
    | cont _ hb ih => exact Running.cont ih hb

/-- Once a pass stops the loop, every larger iteration limit gives SOLVED. -/
theorem solved_of_brk (hint : cfg.adaptiveRho = false ∨ cfg.adaptiveRhoInterval ≠ 0) {j : ℕ} {s s' : State ℝ N M}
    (hr : Running both lin sq cfg qp xg yg old j s) (hb : body lin sq cfg qp (j + 1 : ℕ) s = .brk s') {m : ℤ}
    (hm : ((j + 1 : ℕ) : ℤ) ≤ m) :
    ∃ st, solve both lin sq { cfg with maxIter := m } qp xg yg old = some st ∧ st.info.status = .SOLVED := by
  obtain ⟨st, hst⟩ := Option.isSome_iff_exists.mp (solve_defined (both := both) (lin := lin) (sq := sq)
    (cfg := { cfg with maxIter := m }) (qp := qp) (xg := xg) (yg := yg) (old := old) hint)
  refine ⟨st, hst, ?_⟩
  rcases solve_cases hst with ⟨i, t, t', _, hb', _, rfl⟩ | ⟨t, ht, rfl⟩
  · obtain ⟨-, rfl, -⟩ := brk_spec hb'
    rfl
  · exfalso
    have ht := running_maxIter.mp ht
    obtain ⟨u, hu⟩ := running_prefix ht (j + 1) (by show j + 1 ≤ m.toNat; omega)
    cases hu with
    | cont h1 b1 =>
      have := running_unique h1 hr
      subst this
      rw [b1] at hb
      cases hb

/-- A run that never stops visits a state after every number of passes. -/
theorem running_all (hint : cfg.adaptiveRho = false ∨ cfg.adaptiveRhoInterval ≠ 0)
    (hn : ∀ (j : ℕ) s s', Running both lin sq cfg qp xg yg old j s → body lin sq cfg qp (j + 1 : ℕ) s ≠ .brk s') (k : ℕ) :
    ∃ s, Running both lin sq cfg qp xg yg old k s := by
  induction k with
  | zero => exact ⟨_, Running.init⟩
  | succ k ih =>
    obtain ⟨s, hs⟩ := ih
    cases hb : body lin sq cfg qp (k + 1 : ℕ) s with
    | ub =>
      rcases body_cases (lin := lin) (sq := sq) (cfg := cfg) (qp := qp) (k + 1 : ℕ) s with
        ⟨s1, hb', _⟩ | ⟨_, h1, h2⟩ | ⟨s2, _, _, hb' | ⟨_, _, _, _, hb'⟩⟩
      · rw [hb] at hb'; cases hb'
      · rcases hint with h | h
        · rw [h] at h1; cases h1
        · exact absurd h2 h
      · rw [hb] at hb'; cases hb'
      · rw [hb] at hb'; cases hb'
    | brk s' => exact absurd hb (hn k s s' hs)
    | cont s' => exact ⟨s', Running.cont hs hb⟩

/-- The step sizes of all constraints. -/
def State.steps (s : State ℝ N M) : Fin M ⊕ Fin N → ℝ := Sum.elim s.rhoVec s.rhoVecBox

/-- An ADMM object with the same iterates and step sizes. -/
noncomputable def mirror (cfg : Settings ℝ) (qp : QP ℝ N M) (s : State ℝ N M) : Admm.State ℝ N M :=
  { Admm.fresh cfg 0 0 0 with
    x := s.x, y := s.y, z := s.aux, rhoVec := s.steps, rhoInvVec := Sum.elim s.rhoInvVec s.rhoVecBoxInv
    fact := Admm.constructKkt true cfg.sigma qp.H (Admm.constructA qp.A) (Sum.elim s.rhoInvVec s.rhoVecBoxInv) 0 }

/-- With an exact linear solver and `alpha = 1`, a pass is a step of ADMM in the mathematical sense. -/
theorem step_box (hex : ExactSolver both lin) (hconv : qp.Convex) (hsig : 0 < cfg.sigma) (hrho : 0 < cfg.rho) (halpha : cfg.alpha = 1)
    (ho : CleanCorner old.kkt) {k : ℕ} {s : State ℝ N M} (hr : Running both lin sq cfg qp xg yg old k s) :
    AdmmMath.Step qp.H qp.h (Admm.constructA qp.A) cfg.sigma cfg.alpha s.steps s.x s.aux s.y
      (admmUpdate lin cfg qp s).x (admmUpdate lin cfg qp s).x (admmUpdate lin cfg qp s).aux (admmUpdate lin cfg qp s).y := by
  obtain ⟨l, hl⟩ := exists_exact (N := N) (M := M)
  have hi := stepInv_running hr
  have hp := rho_pos_running hrho hr
  have hinv : ∀ i, s.rhoInvVec i = (s.rhoVec i)⁻¹ := fun i => by rw [hi.ri]
  have hinvb : ∀ i, s.rhoVecBoxInv i = (s.rhoVecBox i)⁻¹ := fun i => by rw [hi.rbi]
  have hc : Corr (admmUpdate lin cfg qp s) (Admm.admmUpdate l cfg qp (mirror cfg qp s)) :=
    corr_admmUpdate hex hl hconv hsig halpha ho (by rw [hi.fact, hi.kkt]) (hi.rhoVec_pos hp) (hi.rhoVecBox_pos hp) hinv hinvb ⟨0, rfl⟩
      ⟨rfl, rfl, rfl, rfl, rfl⟩
  have hst := Admm.step_admmUpdate (st := mirror cfg qp s) (cfg := cfg) (qp := qp) hl hconv hsig ⟨0, rfl⟩
    (by
      rintro (i | i)
      · exact hi.rhoVec_pos hp i
      · exact hi.rhoVecBox_pos hp i)
    (by
      rintro (i | i)
      · exact hinv i
      · exact hinvb i)
  have hx : (Admm.admmUpdate l cfg qp (mirror cfg qp s)).xTilde = (Admm.admmUpdate l cfg qp (mirror cfg qp s)).x := by
    funext i
    have := hst.hx i
    rw [halpha] at this
    rw [this]; ring
  rw [hx, ← hc.x, ← hc.y, ← hc.z] at hst
  exact hst

theorem sameIter_aux {s t : State ℝ N M} (h : SameIter s t) : s.aux = t.aux := by
  unfold State.aux; rw [h.2.2.1, h.2.2.2.1]

/-- States of a run that never stops and keeps the step size from pass `k0` on form an infinite ADMM run. -/
theorem tail_run (hex : ExactSolver both lin) (hconv : qp.Convex) (hc : qp.Consistent) (hsig : 0 < cfg.sigma)
    (hrho : 0 < cfg.rho) (halpha : cfg.alpha = 1) (ho : CleanCorner old.kkt) {g : ℕ → State ℝ N M}
    (hg : ∀ k, Running both lin sq cfg qp xg yg old k (g k)) {k0 : ℕ} (hk0 : ∀ k ≥ k0, (g (k + 1)).rho = (g k).rho) :
    (∀ j, 0 < (g (k0 + 1)).steps j) ∧ AdmmMath.Run qp.H qp.h (Admm.constructA qp.A) cfg.sigma cfg.alpha (g (k0 + 1)).steps qp.lower qp.upper
      (fun k => (g (k0 + 1 + k)).x) (fun k => (g (k0 + 1 + k)).aux) (fun k => (g (k0 + 1 + k)).y)
      (fun k => (g (k0 + 1 + (k + 1))).x) := by
  have hinv := fun k => stepInv_running (hg k)
  have hpos := fun k => rho_pos_running hrho (hg k)
  have hconst : ∀ k, (g (k0 + 1 + k)).steps = (g (k0 + 1)).steps := by
    have hr : ∀ k, (g (k0 + 1 + k)).rho = (g (k0 + 1)).rho := by
      intro k
      induction k with
      | zero => rfl
      | succ k ih =>
        rw [← ih]
        exact hk0 (k0 + 1 + k) (by omega)
    intro k
    unfold State.steps
    rw [(hinv _).rv, (hinv (k0 + 1)).rv, (hinv _).rb, (hinv (k0 + 1)).rb, (hinv _).ct, (hinv (k0 + 1)).ct, (hinv _).bt, (hinv (k0 + 1)).bt, hr]
  have hsame : ∀ k, SameIter (g (k + 1)) (admmUpdate lin cfg qp (g k)) ∧ AfterPass both lin sq cfg qp xg yg old (k + 1) (g (k + 1)) := by
    intro k
    cases hk : hg (k + 1) with
    | cont h1 b1 =>
      have e := running_unique h1 (hg k)
      subst e
      exact ⟨body_sameIter (Or.inl b1), k, g k, rfl, hg k, Or.inl b1⟩
  refine ⟨?_, ⟨fun k => ?_, fun k => ?_⟩⟩
  · rintro (j | j)
    · exact (hinv _).rhoVec_pos (hpos _) j
    · exact (hinv _).rhoVecBox_pos (hpos _) j
  · have hst := step_box hex hconv hsig hrho halpha ho (hg (k0 + 1 + k))
    rw [hconst] at hst
    have hs := (hsame (k0 + 1 + k)).1
    have e : k0 + 1 + (k + 1) = k0 + 1 + k + 1 := by omega
    simp only [e, hs.1, hs.2.1, sameIter_aux hs]
    exact hst
  · have e : k0 + 1 + k = k0 + k + 1 := by omega
    show QP.InNormalCone _ _ (g (k0 + 1 + k)).aux (g (k0 + 1 + k)).y
    rw [e]
    exact dual_in_normal_cone hc hrho (hsame (k0 + k)).2

/-- If the iterate after a tested pass has small residuals, the pass does not continue. -/
theorem not_cont (hrel : 0 ≤ cfg.epsRel) {it : ℤ} {s s' : State ℝ N M} (hb : body lin sq cfg qp it s = .cont s') (hchk : checkNow cfg it = true)
    (b1 : infNorm (qp.A *ᵥ s'.x - s'.z) + infNorm (s'.x - s'.q) ≤ cfg.epsAbs) (b2 : infNorm (qp.lagrangianGradient s'.x s'.y) ≤ cfg.epsAbs) : False := by
  obtain ⟨e1, e2, e3, e4, _⟩ := body_sameIter (Or.inl hb)
  rw [e1, e3, e4] at b1
  rw [e1, e2] at b2
  rcases body_cases (lin := lin) (sq := sq) (cfg := cfg) (qp := qp) it s with
    ⟨s1, hb', _⟩ | ⟨hb', _⟩ | ⟨s2, _, ht, _⟩
  · rw [hb] at hb'; cases hb'
  · rw [hb] at hb'; cases hb'
  · obtain ⟨hs2, hf⟩ := ht hchk
    rw [hs2] at hf
    have : terminationCriteria cfg (residualsUpdate qp (admmUpdate lin cfg qp s)) = true := by
      rw [terminationCriteria_iff]
      refine ⟨b1.trans ?_, b2.trans ?_⟩
      · have h0 : 0 ≤ boxPrimalScale qp (admmUpdate lin cfg qp s).x (admmUpdate lin cfg qp s).z := le_trans (infNorm_nonneg _) (le_max_left _ _)
        have := mul_nonneg hrel h0
        linarith
      · have h0 : 0 ≤ Admm.dualScale qp (admmUpdate lin cfg qp s).x (admmUpdate lin cfg qp s).y := le_trans (infNorm_nonneg _) (le_max_left _ _)
        have := mul_nonneg hrel h0
        linarith
    rw [this] at hf
    cases hf

/-- C200. For a convex QP with a KKT point, an exact linear solver and valid settings with `alpha = 1`: either SOLVED is returned for every large
iteration limit, or the run goes on forever and changes the step size infinitely often. -/
theorem solved_or_step_size_changes_forever (hex : ExactSolver both lin) (hconv : qp.Convex) (hkkt : ∃ x y, qp.KKT x y)
    (hsig : 0 < cfg.sigma) (hrho : 0 < cfg.rho) (halpha : cfg.alpha = 1) (ho : CleanCorner old.kkt)
    (hint : cfg.adaptiveRho = false ∨ cfg.adaptiveRhoInterval ≠ 0) (hcheck : cfg.checkTermination ≠ 0) (heps : 0 < cfg.epsAbs)
    (hrel : 0 ≤ cfg.epsRel) :
    (∃ n : ℤ, ∀ maxIter ≥ n, ∃ st, solve both lin sq { cfg with maxIter := maxIter } qp xg yg old = some st ∧
      st.info.status = .SOLVED) ∨
    (∀ k, ∃ k' ≥ k, ∃ st st', Running both lin sq cfg qp xg yg old k' st ∧ Running both lin sq cfg qp xg yg old (k' + 1) st' ∧
      st'.rho ≠ st.rho) := by
  by_cases hstop : ∃ (j : ℕ) (s s' : State ℝ N M), Running both lin sq cfg qp xg yg old j s ∧ body lin sq cfg qp (j + 1 : ℕ) s = .brk s'
  · obtain ⟨j, s, s', hr, hb⟩ := hstop
    exact Or.inl ⟨((j + 1 : ℕ) : ℤ), fun m hm => solved_of_brk hint hr hb hm⟩
  right
  have hn : ∀ (j : ℕ) s s', Running both lin sq cfg qp xg yg old j s → body lin sq cfg qp (j + 1 : ℕ) s ≠ .brk s' :=
    fun j s s' h hb => hstop ⟨j, s, s', h, hb⟩
  choose g hg using running_all hint hn
  by_contra hcon
  push Not at hcon
  obtain ⟨k0, hk0⟩ := hcon
  obtain ⟨xs, ys, hk⟩ := hkkt
  obtain ⟨hpos, run⟩ := tail_run hex hconv (Admm.consistent_of_kkt hk) hsig hrho halpha ho hg
    (fun k hk' => hk0 k hk' (g k) (g (k + 1)) (hg k) (hg (k + 1)))
  obtain ⟨r1, r2⟩ := AdmmMath.residuals_tendsto hconv.2 (by rw [halpha]; norm_num) (by rw [halpha]; norm_num) hsig hpos run (Admm.kkt_stat hk) (Admm.kkt_cone hk)
  have l1 : Tendsto (fun k => infNorm (qp.rows (g (k0 + 1 + k)).x - (g (k0 + 1 + k)).aux)) atTop (𝓝 0) :=
    Admm.infNorm_tendsto fun j => (r1 j).congr fun k => by rw [QP.rows_eq]; rfl
  have l2 : Tendsto (fun k => infNorm (qp.lagrangianGradient (g (k0 + 1 + k)).x (g (k0 + 1 + k)).y)) atTop (𝓝 0) :=
    Admm.infNorm_tendsto fun i => (r2 i).congr fun k => by rw [QP.lagrangianGradient_eq]; rfl
  obtain ⟨k1, hk1⟩ := eventually_atTop.mp ((l1.eventually (ge_mem_nhds (half_pos heps))).and (l2.eventually (ge_mem_nhds heps)))
  set c := cfg.checkTermination.natAbs with hc
  have hc1 : 1 ≤ c := Nat.one_le_iff_ne_zero.mpr (Int.natAbs_ne_zero.mpr hcheck)
  obtain ⟨p, hp⟩ : ∃ p, c * (k0 + 1 + k1 + 1) = p + 1 := ⟨c * (k0 + 1 + k1 + 1) - 1, by
    have : 0 < c * (k0 + 1 + k1 + 1) := Nat.mul_pos hc1 (by omega)
    omega⟩
  have hpk : k0 + 1 + k1 ≤ p := by
    have : k0 + 1 + k1 + 1 ≤ c * (k0 + 1 + k1 + 1) := Nat.le_mul_of_pos_left _ hc1
    omega
  have hchk : checkNow cfg ((p + 1 : ℕ) : ℤ) = true := by
    unfold checkNow
    rw [decide_eq_true hcheck, Bool.true_and, decide_eq_true_eq, ← Int.dvd_iff_tmod_eq_zero]
    refine Int.natAbs_dvd.mp ⟨((k0 + 1 + k1 + 1 : ℕ) : ℤ), ?_⟩
    rw [← hp, ← hc]; push_cast; rfl
  obtain ⟨b1, b2⟩ := hk1 (p + 1 - (k0 + 1)) (by omega)
  rw [show k0 + 1 + (p + 1 - (k0 + 1)) = p + 1 by omega] at b1 b2
  cases hgp : hg (p + 1) with
  | cont h1 bb => exact not_cont hrel bb hchk ((infNorm_parts_le _).trans (by linarith)) b2

/-- With a tolerance of at least `1e12` the step size never changes. -/
theorem rho_constant (hr1 : 1 / 10 ^ 6 ≤ cfg.rho) (hr2 : cfg.rho ≤ 10 ^ 6) (htol : 10 ^ 12 ≤ cfg.adaptiveRhoTolerance) {k : ℕ} {st : State ℝ N M}
    (h : Running both lin sq cfg qp xg yg old k st) : st.rho = cfg.rho := by
  induction h with
  | init => rfl
  | @cont k st st' h hb ih =>
    rcases body_cases (lin := lin) (sq := sq) (cfg := cfg) (qp := qp) (k + 1 : ℕ) st with
      ⟨s1, hb', _⟩ | ⟨hb', _⟩ | ⟨s2, hs2, _, hb' | ⟨_, _, _, _, hb'⟩⟩
    · rw [hb] at hb'; cases hb'
    · rw [hb] at hb'; cases hb'
    · rw [hb] at hb'; cases hb'
      rcases hs2 with rfl | rfl <;> exact ih
    · rw [hb] at hb'; cases hb'
      have hs : s2.rho = cfg.rho := by rcases hs2 with rfl | rfl <;> exact ih
      obtain ⟨c1, c2⟩ := clampRho_bounds (estimateRho sq s2 s2.rho)
      unfold rhoMin at c1
      unfold rhoMax at c2
      have hno : ¬ (clampRho (estimateRho sq s2 s2.rho) < s2.rho / cfg.adaptiveRhoTolerance ∨
          clampRho (estimateRho sq s2 s2.rho) > s2.rho * cfg.adaptiveRhoTolerance) := by
        rw [not_or, not_lt, not_lt]
        generalize clampRho (estimateRho sq s2 s2.rho) = r at c1 c2 ⊢
        rw [hs]
        have ht : (0 : ℝ) < cfg.adaptiveRhoTolerance := lt_of_lt_of_le (by norm_num) htol
        constructor
        · rw [div_le_iff₀ ht]
          have : (1 / 1000000 : ℝ) * 10 ^ 12 ≤ r * cfg.adaptiveRhoTolerance := mul_le_mul c1 htol (by norm_num) (by linarith)
          linarith
        · have : (1 / 10 ^ 6 : ℝ) * 10 ^ 12 ≤ cfg.rho * cfg.adaptiveRhoTolerance := mul_le_mul hr1 htol (by norm_num) (by linarith)
          norm_num at this
          linarith
      show (adaptRho sq cfg s2).rho = cfg.rho
      unfold adaptRho
      rw [if_neg hno]
      exact hs

/-- C200 (harmless tolerance). With an initial step size within the limits of the step size and a tolerance of at least `1e12`,
SOLVED is returned for every large iteration limit. -/
theorem solved_with_large_tolerance (hex : ExactSolver both lin) (hconv : qp.Convex) (hkkt : ∃ x y, qp.KKT x y)
    (hsig : 0 < cfg.sigma) (hr1 : 1 / 10 ^ 6 ≤ cfg.rho) (hr2 : cfg.rho ≤ 10 ^ 6) (halpha : cfg.alpha = 1) (ho : CleanCorner old.kkt)
    (hint : cfg.adaptiveRhoInterval ≠ 0) (htol : 10 ^ 12 ≤ cfg.adaptiveRhoTolerance) (hcheck : cfg.checkTermination ≠ 0)
    (heps : 0 < cfg.epsAbs) (hrel : 0 ≤ cfg.epsRel) :
    ∃ n : ℤ, ∀ maxIter ≥ n, ∃ st, solve both lin sq { cfg with maxIter := maxIter } qp xg yg old = some st ∧
      st.info.status = .SOLVED := by
  have hrho : 0 < cfg.rho := lt_of_lt_of_le (by norm_num) hr1
  rcases solved_or_step_size_changes_forever (xg := xg) (yg := yg) (old := old) (sq := sq) hex hconv hkkt hsig hrho halpha ho (Or.inr hint) hcheck heps hrel with h | h
  · exact h
  · obtain ⟨k, _, st, st', h1, h2, h3⟩ := h 0
    exact absurd ((rho_constant hr1 hr2 htol h2).trans (rho_constant hr1 hr2 htol h1).symm) h3

/-- If the iterate after pass `k`, a multiple of `check_termination`, has small residuals then the loop stops at pass `k` or before. -/
theorem stops_by (hadapt : cfg.adaptiveRho = false) (hcheck : 0 < cfg.checkTermination) (hrel : 0 ≤ cfg.epsRel) {k : ℕ} (hk : 1 ≤ k)
    (hdvd : cfg.checkTermination ∣ (k : ℤ))
    (r1 : infNorm (qp.A *ᵥ (iterate both lin cfg qp xg yg old k).x - (iterate both lin cfg qp xg yg old k).z) +
      infNorm ((iterate both lin cfg qp xg yg old k).x - (iterate both lin cfg qp xg yg old k).q) ≤ cfg.epsAbs)
    (r2 : infNorm (qp.lagrangianGradient (iterate both lin cfg qp xg yg old k).x (iterate both lin cfg qp xg yg old k).y) ≤ cfg.epsAbs) :
    ∃ j s s', j + 1 ≤ k ∧ Running both lin sq cfg qp xg yg old j s ∧ body lin sq cfg qp (j + 1 : ℕ) s = .brk s' := by
  by_contra hcon
  push Not at hcon
  have hrun : ∀ j ≤ k, ∃ s, Running both lin sq cfg qp xg yg old j s := by
    intro j
    induction j with
    | zero => intro _; exact ⟨_, Running.init⟩
    | succ j ih =>
      intro hj
      obtain ⟨s, hs⟩ := ih (by omega)
      cases hb : body lin sq cfg qp (j + 1 : ℕ) s with
      | ub =>
        rcases body_cases (lin := lin) (sq := sq) (cfg := cfg) (qp := qp) (j + 1 : ℕ) s with
          ⟨s1, hb', _⟩ | ⟨_, h1, h2⟩ | ⟨s2, _, _, hb' | ⟨_, _, _, _, hb'⟩⟩
        · rw [hb] at hb'; cases hb'
        · rw [hadapt] at h1; cases h1
        · rw [hb] at hb'; cases hb'
        · rw [hb] at hb'; cases hb'
      | brk s' => exact absurd hb (hcon j s s' hj hs)
      | cont s' => exact ⟨s', Running.cont hs hb⟩
  obtain ⟨p, rfl⟩ : ∃ p, k = p + 1 := ⟨k - 1, by omega⟩
  obtain ⟨t, ht⟩ := hrun (p + 1) le_rfl
  obtain ⟨e1, e2, e3, e4, _⟩ := running_iterate hadapt ht
  rw [← e1, ← e3, ← e4] at r1
  rw [← e1, ← e2] at r2
  have hchk : checkNow cfg ((p + 1 : ℕ) : ℤ) = true := by
    unfold checkNow
    rw [decide_eq_true (by omega : cfg.checkTermination ≠ 0), Bool.true_and, decide_eq_true_eq, ← Int.dvd_iff_tmod_eq_zero]
    exact hdvd
  cases ht with
  | cont h1 bb => exact not_cont hrel bb hchk r1 r2

/-- C201. Let `(xs, ys)` be a KKT point of a convex QP, `mu` a lower bound of `sigma` and of all step sizes, and `d > 0` so small that `d`
times the norms of the data is at most the absolute tolerance. Then the number of tests needed is at most the error of the
guess divided by `mu d²`: with an iteration limit of at least `check_termination` times this number SOLVED is returned. -/
theorem iteration_bound (hex : ExactSolver both lin) (hconv : qp.Convex) {xs : Fin N → ℝ} {ys : Fin M ⊕ Fin N → ℝ} (hk : qp.KKT xs ys)
    (hsig : 0 < cfg.sigma) (hrho : 0 < cfg.rho) (halpha : cfg.alpha = 1) (ho : CleanCorner old.kkt)
    (hadapt : cfg.adaptiveRho = false) (hcheck : 0 < cfg.checkTermination) (heps : 0 ≤ cfg.epsAbs) (hrel : 0 ≤ cfg.epsRel)
    {mu d : ℝ} (hmu : 0 < mu) (hmus : mu ≤ cfg.sigma) (hmur : ∀ j, mu ≤ Admm.stepSize qp cfg.rho j) (hd : 0 < d)
    (hd0 : 2 * d ≤ cfg.epsAbs) (hd1 : ∀ j, d * (1 + ∑ i, |qp.A j i|) + 2 * d ≤ cfg.epsAbs)
    (hd2 : ∀ i, d * (cfg.sigma + ∑ l, |qp.H i l| + ∑ j, Admm.stepSize qp cfg.rho j * |Admm.rowEntry qp j i|) ≤ cfg.epsAbs)
    {L : ℕ} (hL1 : 1 ≤ L) (hL : Admm.guessError qp cfg xg xs yg ys ≤ L * (mu * d ^ 2))
    (hmax : cfg.checkTermination * L ≤ cfg.maxIter) :
    ∃ st, solve both lin sq cfg qp xg yg old = some st ∧ st.info.status = .SOLVED ∧ st.info.iter ≤ cfg.checkTermination * L := by
  obtain ⟨l, hl⟩ := exists_exact (N := N) (M := M)
  have ha : 0 < cfg.alpha := by rw [halpha]; norm_num
  have ha2 : cfg.alpha < 2 := by rw [halpha]; norm_num
  set old' := Admm.fresh (N := N) (M := M) cfg 0 0 0 with hold'
  have key := same_iterates_as_admm (xg := xg) (yg := yg) (old' := old') hex hl hconv hsig hrho halpha ho
  have hp := Admm.setup_rhoVec_pos (both := true) (qp := qp) (xg := xg) (yg := yg) (old := old') hrho
  have hrun := Admm.iterate_run (xg := xg) (yg := yg) (old := old') hl hconv (Admm.consistent_of_kkt hk) hsig hrho
  have hc : 0 < cfg.alpha * (2 - cfg.alpha) := mul_pos ha (by linarith)
  set c := cfg.checkTermination.toNat with hcd
  have hc1 : 1 ≤ c := by omega
  have hcc : (c : ℤ) = cfg.checkTermination := by omega
  obtain ⟨i, hi1, hi2, hi⟩ := Admm.exists_small (c := c) (L := L) (t := cfg.alpha * (2 - cfg.alpha) * mu * d ^ 2)
    (V := fun k => AdmmMath.lyap cfg.sigma (Admm.setup true cfg qp xg yg old').rhoVec (Admm.iterate true l cfg qp xg yg old' (k + 1)).x
      (Admm.iterate true l cfg qp xg yg old' (k + 1)).z (Admm.iterate true l cfg qp xg yg old' (k + 1)).y xs (Admm.constructA qp.A *ᵥ xs) ys)
    (e := fun k => cfg.alpha * (2 - cfg.alpha) * AdmmMath.stepSq (Admm.constructA qp.A) cfg.sigma (Admm.setup true cfg qp xg yg old').rhoVec
      (Admm.iterate true l cfg qp xg yg old' (k + 1)).x (Admm.iterate true l cfg qp xg yg old' (k + 1)).z (Admm.iterate true l cfg qp xg yg old' (k + 2)).xTilde)
    (fun k => AdmmMath.lyap_nonneg hsig.le hp _ _ _ _ _ _) (fun k => mul_nonneg hc.le (AdmmMath.stepSq_nonneg _ hsig.le hp _ _ _))
    (fun k => AdmmMath.lyap_descent hconv.2 ha.le hp (hrun.cone k) (hrun.step k) (Admm.kkt_stat hk) (Admm.kkt_cone hk)) hc1 hL1
    ((Admm.lyap_first hl hconv hsig hrho ha ha2 hk).trans (hL.trans_eq (by rw [halpha]; ring)))
  have hci : 1 ≤ c * i := Nat.mul_pos hc1 hi1
  have hsmall := le_of_mul_le_mul_left (hi.trans_eq (by ring : _ = cfg.alpha * (2 - cfg.alpha) * (mu * d ^ 2))) hc
  obtain ⟨q1, q2⟩ := Admm.small_step (hrun.step (c * i - 1)) hmu hmus (fun j => by rw [Admm.stepSize_eq]; exact hmur j) hd.le hsmall
  have hci' : c * i - 1 + 1 = c * i := by omega
  obtain ⟨g1, g2, g3⟩ := key (c * i)
  simp only [hci', ← g1, ← g2, ← g3] at q1 q2
  set s := iterate both lin cfg qp xg yg old (c * i) with hs
  -- the test at pass `c i` accepts
  have r1b : infNorm (s.x - s.q) ≤ 2 * d := by
    rw [infNorm_le_iff]
    refine ⟨by linarith, fun j => ?_⟩
    have := q1 (Sum.inr j)
    simp only [Admm.constructA_entry] at this
    rw [stacked_mulVec] at this
    refine this.trans (le_of_eq ?_)
    have e : ∑ i, |Admm.rowEntry qp (Sum.inr j) i| = 1 := by
      rw [Finset.sum_eq_single j]
      · show |if j = j then (1 : ℝ) else 0| = 1
        rw [if_pos rfl, abs_one]
      · intro b _ hb
        show |if j = b then (1 : ℝ) else 0| = 0
        rw [if_neg (Ne.symm hb), abs_zero]
      · intro h; exact absurd (Finset.mem_univ _) h
    rw [e]; ring
  have r1a : infNorm (qp.A *ᵥ s.x - s.z) ≤ cfg.epsAbs - 2 * d := by
    rw [infNorm_le_iff]
    refine ⟨by linarith, fun j => ?_⟩
    have := q1 (Sum.inl j)
    simp only [Admm.constructA_entry] at this
    rw [stacked_mulVec] at this
    have h2 := hd1 j
    refine this.trans ?_
    show d * (1 + ∑ i, |qp.A j i|) ≤ _
    linarith
  have r2 : infNorm (qp.lagrangianGradient s.x s.y) ≤ cfg.epsAbs := by
    rw [infNorm_le_iff]
    refine ⟨heps, fun l => ?_⟩
    rw [QP.lagrangianGradient_eq]
    refine (q2 l).trans (le_trans (le_of_eq ?_) (hd2 l))
    simp only [Admm.constructA_entry, Admm.stepSize_eq]
  obtain ⟨j, t, t', hj, hr, hb⟩ := stops_by hadapt (sq := sq) (xg := xg) (yg := yg) (old := old) hcheck hrel hci
    (by rw [← hcc]; exact ⟨(i : ℤ), by push_cast; rfl⟩) (by linarith) r2
  have hcL : ((c * i : ℕ) : ℤ) ≤ cfg.checkTermination * L := by
    rw [← hcc]; push_cast
    exact mul_le_mul_of_nonneg_left (by exact_mod_cast hi2) (by positivity)
  obtain ⟨st, h1, h2⟩ := solved_of_brk (m := cfg.maxIter) (Or.inl hadapt) hr hb (by omega)
  have h1 : solve both lin sq cfg qp xg yg old = some st := h1
  refine ⟨st, h1, h2, ?_⟩
  rcases solve_cases h1 with ⟨j', u, u', hr', hb', _, rfl⟩ | ⟨u, _, rfl⟩
  · show ((j' + 1 : ℕ) : ℤ) ≤ _
    rcases Nat.lt_or_ge j j' with hlt | hge
    · exfalso
      obtain ⟨w, hw⟩ := running_prefix hr' (j + 1) hlt
      cases hw with
      | cont h3 b3 =>
        have := running_unique h3 hr
        subst this
        rw [b3] at hb
        cases hb
    · omega
  · cases h2

end Real
end PolyMPC.BoxAdmm
