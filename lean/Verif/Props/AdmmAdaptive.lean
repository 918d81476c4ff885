import Verif.Props.AdmmCycle

/-!
# Property C189: with `adaptive_rho` ADMM either returns SOLVED for every large iteration limit or changes the step size forever

C13 covers a constant step size and C188 shows that a changing one can prevent termination. Here: for a convex QP with a KKT
point the only way not to terminate is to change the step size infinitely often. In particular a tolerance of at least
`1e12` (the ratio of the limits of the step size) makes `adaptive_rho` harmless.
-/

set_option linter.unusedSectionVars false

namespace PolyMPC.Admm
open Matrix PolyMPC.Spec PolyMPC.QPBase Filter Topology

section Field
variable {K : Type*} [Field K] [LinearOrder K] [IsStrictOrderedRing K] {N M : ℕ}
variable {both : Bool} {lin : KktMat K N M → (KktIdx N M → K) → (KktIdx N M → K)} {sq : K → K} {cfg : Settings K}
  {qp : QP K N M} {xg : Fin N → K} {yg : Fin M ⊕ Fin N → K} {old : State K N M}

/-- A run is determined by the number of passes. -/
theorem running_unique {k : ℕ} {s t : State K N M} (hs : Running both lin sq cfg qp xg yg old k s)
    (ht : Running both lin sq cfg qp xg yg old k t) : s = t := by
  induction k generalizing s t with
  | zero => cases hs; cases ht; rfl
  | succ k ih =>
    cases hs with
    | cont h1 b1 =>
      cases ht with
      | cont h2 b2 =>
        have := ih h1 h2
        subst this
        rw [b1] at b2
        injection b2

/-- A run with `k` passes has shorter runs as prefixes. -/
theorem running_prefix {k : ℕ} {s : State K N M} (hs : Running both lin sq cfg qp xg yg old k s) :
    ∀ j ≤ k, ∃ t, Running both lin sq cfg qp xg yg old j t := by
  induction hs with
  | init => intro j hj; obtain rfl : j = 0 := by omega
            exact ⟨_, Running.init⟩
  | @cont k st st' h hb ih =>
    intro j hj
    rcases Nat.lt_or_ge k j with h1 | h1
    · obtain rfl : j = k + 1 := by omega
      exact ⟨_, Running.cont h hb⟩
    · exact ih j h1

/-- The iteration limit does not influence the passes. -/
theorem running_maxIter {m : ℤ} {k : ℕ} {s : State K N M} :
    Running both lin sq { cfg with maxIter := m } qp xg yg old k s ↔ Running both lin sq cfg qp xg yg old k s := by
  constructor
  · intro h
    induction h with
    | init => exact Running.init
    | cont _ hb ih => exact Running.cont ih hb
  · intro h
    induction h with
    | init => exact Running.init (cfg := { cfg with maxIter := m })
    | cont _ hb ih => exact Running.cont ih hb

/-- Once a pass stops the loop, every larger iteration limit gives SOLVED. -/
theorem solved_of_brk (hint : cfg.adaptiveRho = false ∨ cfg.adaptiveRhoInterval ≠ 0) {j : ℕ} {s s' : State K N M}
    (hr : Running both lin sq cfg qp xg yg old j s) (hb : body lin sq cfg qp (j + 1 : ℕ) s = .brk s') {m : ℤ}
    (hm : ((j + 1 : ℕ) : ℤ) ≤ m) :
    ∃ st, solve both lin sq { cfg with maxIter := m } qp xg yg old = some st ∧ st.info.status = .SOLVED := by
  obtain ⟨st, hst⟩ := Option.isSome_iff_exists.mp (solve_defined (both := both) (lin := lin) (sq := sq)
    (cfg := { cfg with maxIter := m }) (qp := qp) (xg := xg) (yg := yg) (old := old) hint)
  refine ⟨st, hst, ?_⟩
  rcases solve_cases hst with ⟨i, t, t', _, hb', _, rfl⟩ | ⟨t, ht, rfl⟩
  · obtain ⟨-, rfl, -⟩ := brk_spec hb'
    rfl
  · exfalso
    have ht := running_maxIter.mp ht
    obtain ⟨u, hu⟩ := running_prefix ht (j + 1) (by show j + 1 ≤ m.toNat; omega)
    cases hu with
    | cont h1 b1 =>
      have := running_unique h1 hr
      subst this
      rw [b1] at hb
      cases hb

/-- A run that never stops visits a state after every number of passes. -/
theorem running_all (hint : cfg.adaptiveRho = false ∨ cfg.adaptiveRhoInterval ≠ 0)
    (hn : ∀ (j : ℕ) s s', Running both lin sq cfg qp xg yg old j s → body lin sq cfg qp (j + 1 : ℕ) s ≠ .brk s') (k : ℕ) :
    ∃ s, Running both lin sq cfg qp xg yg old k s := by
  induction k with
  | zero => exact ⟨_, Running.init⟩
  | succ k ih =>
    obtain ⟨s, hs⟩ := ih
    cases hb : body lin sq cfg qp (k + 1 : ℕ) s with
    | ub =>
      rcases body_cases (lin := lin) (sq := sq) (cfg := cfg) (qp := qp) (k + 1 : ℕ) s with
        ⟨s1, hb', _⟩ | ⟨_, h1, h2⟩ | ⟨s2, _, _, hb' | ⟨_, _, _, _, hb'⟩⟩
      · rw [hb] at hb'; cases hb'
      · rcases hint with h | h
        · rw [h] at h1; cases h1
        · exact absurd h2 h
      · rw [hb] at hb'; cases hb'
      · rw [hb] at hb'; cases hb'
    | brk s' => exact absurd hb (hn k s s' hs)
    | cont s' => exact ⟨s', Running.cont hs hb⟩

end Field

section Real
variable {N M : ℕ}
variable {both : Bool} {lin : KktMat ℝ N M → (KktIdx N M → ℝ) → (KktIdx N M → ℝ)} {sq : ℝ → ℝ} {cfg : Settings ℝ}
  {qp : QP ℝ N M} {xg : Fin N → ℝ} {yg : Fin M ⊕ Fin N → ℝ} {old : State ℝ N M}

/-- States of a run that never stops and keeps the step size from pass `k0` on form an infinite ADMM run. -/
theorem tail_run (hex : ExactSolver both lin) (hconv : qp.Convex) (hc : qp.Consistent) (hsig : 0 < cfg.sigma)
    (hrho : 0 < cfg.rho) {g : ℕ → State ℝ N M} (hg : ∀ k, Running both lin sq cfg qp xg yg old k (g k)) {k0 : ℕ}
    (hk0 : ∀ k ≥ k0, (g (k + 1)).rho = (g k).rho) :
    ∃ rho : Fin M ⊕ Fin N → ℝ, (∀ j, 0 < rho j) ∧ AdmmMath.Run qp.H qp.h (constructA qp.A) cfg.sigma cfg.alpha rho qp.lower qp.upper
      (fun k => (g (k0 + 1 + k)).x) (fun k => (g (k0 + 1 + k)).z) (fun k => (g (k0 + 1 + k)).y)
      (fun k => (admmUpdate lin cfg qp (g (k0 + 1 + k))).xTilde) := by
  have hinv := fun k => stepInv_running (hg k)
  have hpos := fun k => rho_pos_running hrho (hg k)
  have hconst : ∀ k, (g (k0 + 1 + k)).rhoVec = (g (k0 + 1)).rhoVec := by
    have hr : ∀ k, (g (k0 + 1 + k)).rho = (g (k0 + 1)).rho := by
      intro k
      induction k with
      | zero => rfl
      | succ k ih =>
        rw [← ih]
        exact hk0 (k0 + 1 + k) (by omega)
    intro k
    rw [(hinv _).rv, (hinv (k0 + 1)).rv, (hinv _).ct, (hinv (k0 + 1)).ct, (hinv _).bt, (hinv (k0 + 1)).bt, hr]
  have hsame : ∀ k, SameIter (g (k + 1)) (admmUpdate lin cfg qp (g k)) := by
    intro k
    cases hk : hg (k + 1) with
    | cont h1 b1 =>
      have e := running_unique h1 (hg k)
      subst e
      exact body_sameIter (Or.inl b1)
  refine ⟨(g (k0 + 1)).rhoVec, fun j => (hinv _).rhoVec_pos (hpos _) j, ⟨fun k => ?_, fun k => ?_⟩⟩
  · have hst := step_admmUpdate (st := g (k0 + 1 + k)) hex hconv hsig ⟨old.kkt, by rw [(hinv _).fact, (hinv _).kkt]; rfl⟩
      (fun j => (hinv _).rhoVec_pos (hpos _) j) (fun j => by rw [(hinv (k0 + 1 + k)).ri])
    rw [hconst] at hst
    obtain ⟨e1, e2, e3, _⟩ := hsame (k0 + 1 + k)
    have e : k0 + 1 + (k + 1) = k0 + 1 + k + 1 := by omega
    simp only [e, e1, e2, e3]
    exact hst
  · have e : k0 + 1 + k = k0 + k + 1 := by omega
    obtain ⟨_, e2, e3, _⟩ := hsame (k0 + k)
    show QP.InNormalCone _ _ (g (k0 + 1 + k)).z (g (k0 + 1 + k)).y
    rw [e, e2, e3]
    exact cone_admmUpdate hc (fun j => (hinv _).rhoVec_pos (hpos _) j) (fun j => by rw [(hinv (k0 + k)).ri])

/-- C189. For a convex QP with a KKT point, an exact linear solver and valid settings: either SOLVED is returned for every large
iteration limit, or the run goes on forever and changes the step size infinitely often. -/
theorem solved_or_step_size_changes_forever (hex : ExactSolver both lin) (hconv : qp.Convex) (hkkt : ∃ x y, qp.KKT x y)
    (hsig : 0 < cfg.sigma) (hrho : 0 < cfg.rho) (ha : 0 < cfg.alpha) (ha2 : cfg.alpha < 2)
    (hint : cfg.adaptiveRho = false ∨ cfg.adaptiveRhoInterval ≠ 0) (hcheck : cfg.checkTermination ≠ 0) (heps : 0 < cfg.epsAbs)
    (hrel : 0 ≤ cfg.epsRel) :
    (∃ n : ℤ, ∀ maxIter ≥ n, ∃ st, solve both lin sq { cfg with maxIter := maxIter } qp xg yg old = some st ∧
      st.info.status = .SOLVED) ∨
    (∀ k, ∃ k' ≥ k, ∃ st st', Running both lin sq cfg qp xg yg old k' st ∧ Running both lin sq cfg qp xg yg old (k' + 1) st' ∧
      st'.rho ≠ st.rho) := by
  by_cases hstop : ∃ (j : ℕ) (s s' : State ℝ N M), Running both lin sq cfg qp xg yg old j s ∧ body lin sq cfg qp (j + 1 : ℕ) s = .brk s'
  · obtain ⟨j, s, s', hr, hb⟩ := hstop
    exact Or.inl ⟨((j + 1 : ℕ) : ℤ), fun m hm => solved_of_brk hint hr hb hm⟩
  right
  have hn : ∀ (j : ℕ) s s', Running both lin sq cfg qp xg yg old j s → body lin sq cfg qp (j + 1 : ℕ) s ≠ .brk s' :=
    fun j s s' h hb => hstop ⟨j, s, s', h, hb⟩
  choose g hg using running_all hint hn
  by_contra hcon
  push Not at hcon
  obtain ⟨k0, hk0⟩ := hcon
  obtain ⟨xs, ys, hk⟩ := hkkt
  obtain ⟨rho, hpos, run⟩ := tail_run hex hconv (consistent_of_kkt hk) hsig hrho hg
    (fun k hk' => hk0 k hk' (g k) (g (k + 1)) (hg k) (hg (k + 1)))
  obtain ⟨r1, r2⟩ := AdmmMath.residuals_tendsto hconv.2 ha ha2 hsig hpos run (kkt_stat hk) (kkt_cone hk)
  have l1 : Tendsto (fun k => infNorm (qp.rows (g (k0 + 1 + k)).x - (g (k0 + 1 + k)).z)) atTop (𝓝 0) :=
    infNorm_tendsto fun j => (r1 j).congr fun k => by rw [QP.rows_eq]; rfl
  have l2 : Tendsto (fun k => infNorm (qp.lagrangianGradient (g (k0 + 1 + k)).x (g (k0 + 1 + k)).y)) atTop (𝓝 0) :=
    infNorm_tendsto fun i => (r2 i).congr fun k => by rw [QP.lagrangianGradient_eq]; rfl
  obtain ⟨k1, hk1⟩ := eventually_atTop.mp ((l1.eventually (ge_mem_nhds heps)).and (l2.eventually (ge_mem_nhds heps)))
  set c := cfg.checkTermination.natAbs with hc
  have hc1 : 1 ≤ c := Nat.one_le_iff_ne_zero.mpr (Int.natAbs_ne_zero.mpr hcheck)
  obtain ⟨p, hp⟩ : ∃ p, c * (k0 + 1 + k1 + 1) = p + 1 := ⟨c * (k0 + 1 + k1 + 1) - 1, by
    have : 0 < c * (k0 + 1 + k1 + 1) := Nat.mul_pos hc1 (by omega)
    omega⟩
  have hpk : k0 + 1 + k1 ≤ p := by
    have : k0 + 1 + k1 + 1 ≤ c * (k0 + 1 + k1 + 1) := Nat.le_mul_of_pos_left _ hc1
    omega
  have hchk : checkNow cfg ((p + 1 : ℕ) : ℤ) = true := by
    unfold checkNow
    rw [decide_eq_true hcheck, Bool.true_and, decide_eq_true_eq, ← Int.dvd_iff_tmod_eq_zero]
    refine Int.natAbs_dvd.mp ⟨((k0 + 1 + k1 + 1 : ℕ) : ℤ), ?_⟩
    rw [← hp, ← hc]; push_cast; rfl
  obtain ⟨b1, b2⟩ := hk1 (p + 1 - (k0 + 1)) (by omega)
  rw [show k0 + 1 + (p + 1 - (k0 + 1)) = p + 1 by omega] at b1 b2
  cases hgp : hg (p + 1) with
  | cont h1 bb =>
    have e := running_unique h1 (hg p)
    subst e
    obtain ⟨e1, e2, e3, _⟩ := body_sameIter (Or.inl bb)
    rw [e1, e3] at b1
    rw [e1, e2] at b2
    rcases body_cases (lin := lin) (sq := sq) (cfg := cfg) (qp := qp) (p + 1 : ℕ) (g p) with
      ⟨s1, hb', _⟩ | ⟨hb', _⟩ | ⟨s2, _, ht, _⟩
    · exact hn p _ s1 (hg p) hb'
    · rw [bb] at hb'; cases hb'
    · obtain ⟨hs2, hf⟩ := ht hchk
      rw [hs2] at hf
      have : terminationCriteria cfg (residualsUpdate qp (admmUpdate lin cfg qp (g p))) = true := by
        rw [terminationCriteria_iff]
        refine ⟨b1.trans ?_, b2.trans ?_⟩
        · have h0 : 0 ≤ primalScale qp (admmUpdate lin cfg qp (g p)).x (admmUpdate lin cfg qp (g p)).z := le_trans (infNorm_nonneg _) (le_max_left _ _)
          have := mul_nonneg hrel h0
          linarith
        · have h0 : 0 ≤ dualScale qp (admmUpdate lin cfg qp (g p)).x (admmUpdate lin cfg qp (g p)).y := le_trans (infNorm_nonneg _) (le_max_left _ _)
          have := mul_nonneg hrel h0
          linarith
      rw [this] at hf
      cases hf

/-- With a tolerance of at least `1e12` the step size never changes. -/
theorem rho_constant (hr1 : 1 / 10 ^ 6 ≤ cfg.rho) (hr2 : cfg.rho ≤ 10 ^ 6) (htol : 10 ^ 12 ≤ cfg.adaptiveRhoTolerance) {k : ℕ} {st : State ℝ N M}
    (h : Running both lin sq cfg qp xg yg old k st) : st.rho = cfg.rho := by
  induction h with
  | init => rfl
  | @cont k st st' h hb ih =>
    rcases body_cases (lin := lin) (sq := sq) (cfg := cfg) (qp := qp) (k + 1 : ℕ) st with
      ⟨s1, hb', _⟩ | ⟨hb', _⟩ | ⟨s2, hs2, _, hb' | ⟨_, _, _, _, hb'⟩⟩
    · rw [hb] at hb'; cases hb'
    · rw [hb] at hb'; cases hb'
    · rw [hb] at hb'; cases hb'
      rcases hs2 with rfl | rfl <;> exact ih
    · rw [hb] at hb'; cases hb'
      have hs : s2.rho = cfg.rho := by rcases hs2 with rfl | rfl <;> exact ih
      obtain ⟨c1, c2⟩ := clampRho_bounds (estimateRho sq s2 s2.rho)
      unfold rhoMin at c1
      unfold rhoMax at c2
      have hno : ¬ (clampRho (estimateRho sq s2 s2.rho) < s2.rho / cfg.adaptiveRhoTolerance ∨
          clampRho (estimateRho sq s2 s2.rho) > s2.rho * cfg.adaptiveRhoTolerance) := by
        rw [not_or, not_lt, not_lt]
        generalize clampRho (estimateRho sq s2 s2.rho) = r at c1 c2 ⊢
        rw [hs]
        have ht : (0 : ℝ) < cfg.adaptiveRhoTolerance := lt_of_lt_of_le (by norm_num) htol
        constructor
        · rw [div_le_iff₀ ht]
          have : (1 / 1000000 : ℝ) * 10 ^ 12 ≤ r * cfg.adaptiveRhoTolerance := mul_le_mul c1 htol (by norm_num) (by linarith)
          linarith
        · have : (1 / 10 ^ 6 : ℝ) * 10 ^ 12 ≤ cfg.rho * cfg.adaptiveRhoTolerance := mul_le_mul hr1 htol (by norm_num) (by linarith)
          norm_num at this
          linarith
      show (adaptRho sq cfg s2).rho = cfg.rho
      unfold adaptRho
      rw [if_neg hno]
      exact hs

/-- C189 (harmless tolerance). With an initial step size within the limits of the step size and a tolerance of at least `1e12`,
SOLVED is returned for every large iteration limit. -/
theorem solved_with_large_tolerance (hex : ExactSolver both lin) (hconv : qp.Convex) (hkkt : ∃ x y, qp.KKT x y)
    (hsig : 0 < cfg.sigma) (hr1 : 1 / 10 ^ 6 ≤ cfg.rho) (hr2 : cfg.rho ≤ 10 ^ 6) (ha : 0 < cfg.alpha) (ha2 : cfg.alpha < 2)
    (hint : cfg.adaptiveRhoInterval ≠ 0) (htol : 10 ^ 12 ≤ cfg.adaptiveRhoTolerance) (hcheck : cfg.checkTermination ≠ 0)
    (heps : 0 < cfg.epsAbs) (hrel : 0 ≤ cfg.epsRel) :
    ∃ n : ℤ, ∀ maxIter ≥ n, ∃ st, solve both lin sq { cfg with maxIter := maxIter } qp xg yg old = some st ∧
      st.info.status = .SOLVED := by
  have hrho : 0 < cfg.rho := lt_of_lt_of_le (by norm_num) hr1
  rcases solved_or_step_size_changes_forever (xg := xg) (yg := yg) (old := old) (sq := sq) hex hconv hkkt hsig hrho ha ha2 (Or.inr hint) hcheck heps hrel with h | h
  · exact h
  · obtain ⟨k, _, st, st', h1, h2, h3⟩ := h 0
    exact absurd ((rho_constant hr1 hr2 htol h2).trans (rho_constant hr1 hr2 htol h1).symm) h3

/-! ## Non-vacuity -/

/-- Both alternatives occur: the program of C188 is solved with a large tolerance and changes the step size forever with the
default one. -/
example {lin : KktMat ℝ 1 1 → (KktIdx 1 1 → ℝ) → (KktIdx 1 1 → ℝ)} (hex : ExactSolver both lin) (old : State ℝ 1 1) :
    (∃ n : ℤ, ∀ maxIter ≥ n, ∃ st, solveCold both lin Real.sqrt
      { (Settings.default : Settings ℝ) with adaptiveRho := true, adaptiveRhoTolerance := 10 ^ 12, maxIter := maxIter } AdmmCycle.lp old = some st ∧
      st.info.status = .SOLVED) ∧
    (∀ k, ∃ k' ≥ k, ∃ st st', AdmmCycle.Run both lin old 1000 k' st ∧ AdmmCycle.Run both lin old 1000 (k' + 1) st' ∧ st'.rho ≠ st.rho) := by
  constructor
  · exact solved_with_large_tolerance (cfg := { (Settings.default : Settings ℝ) with adaptiveRho := true, adaptiveRhoTolerance := 10 ^ 12 }) hex AdmmCycle.lp_convex ⟨_, _, AdmmCycle.lp_kkt⟩
      (by norm_num [Settings.default]) (by norm_num [Settings.default]) (by norm_num [Settings.default]) (by norm_num [Settings.default]) (by norm_num [Settings.default])
      (by norm_num [Settings.default]) le_rfl (by norm_num [Settings.default]) (by norm_num [Settings.default]) (by norm_num [Settings.default])
  · rcases solved_or_step_size_changes_forever (cfg := AdmmCycle.adaptive 1000) (sq := Real.sqrt) (xg := fun _ => 0) (yg := fun _ => 0) (old := old) hex AdmmCycle.lp_convex ⟨_, _, AdmmCycle.lp_kkt⟩
      (by norm_num [AdmmCycle.adaptive, Settings.default]) (by norm_num [AdmmCycle.adaptive, Settings.default]) (by norm_num [AdmmCycle.adaptive, Settings.default])
      (by norm_num [AdmmCycle.adaptive, Settings.default]) (Or.inr (by norm_num [AdmmCycle.adaptive, Settings.default])) (by norm_num [AdmmCycle.adaptive, Settings.default])
      (by norm_num [AdmmCycle.adaptive, Settings.default]) (by norm_num [AdmmCycle.adaptive, Settings.default]) with ⟨m, h⟩ | h
    · exfalso
      obtain ⟨st, h1, h2⟩ := h m le_rfl
      obtain ⟨st', h3, h4⟩ := AdmmCycle.adaptive_never_solved hex old m
      have e : some st = some st' := h1.symm.trans h3
      cases e
      rw [h2] at h4
      cases h4
    · exact h

end Real
end PolyMPC.Admm
