import Verif.Props.Sqp

/-!
# Property C208: what `cost()` returns after `solve`

The cost is logged by the line search, for the points it tries. So it is the cost of the returned point if the last line
search accepted a step, that of another point if it gave up, and a value from before `solve` if there is no line search.
-/

set_option linter.unusedSectionVars false

namespace PolyMPC.Sqp
open Matrix PolyMPC.Spec

universe u

variable {K : Type u} [Field K] [LinearOrder K] [IsStrictOrderedRing K] {n me mi : ℕ}
variable {prec : Precond K n (me + mi)} {qps : QPSolver K n (me + mi)}

theorem lineSearchLoop_cost (tau eta phi slope mu : K) (cost viol : (Fin n → K) → K) (x p : Fin n → K) (fuel : ℕ) (alpha logged : K) :
    ∃ k ≤ fuel, (lineSearchLoop tau eta phi slope mu cost viol x p fuel alpha logged).1 = tau ^ k * alpha ∧
      (∀ j < k, ¬ (cost (fun i => x i + tau ^ j * alpha * p i) + mu * viol (fun i => x i + tau ^ j * alpha * p i) ≤ phi + tau ^ j * alpha * eta * slope)) ∧
      (k < fuel → (lineSearchLoop tau eta phi slope mu cost viol x p fuel alpha logged).2 = cost fun i => x i + tau ^ k * alpha * p i) ∧
      (k = fuel → (lineSearchLoop tau eta phi slope mu cost viol x p fuel alpha logged).2 =
        if fuel = 0 then logged else cost fun i => x i + tau ^ (fuel - 1) * alpha * p i) := by
  induction fuel generalizing alpha logged with
  | zero =>
    refine ⟨0, le_rfl, by simp [lineSearchLoop], fun j hj => absurd hj (by omega), fun h => absurd h (by omega), fun _ => ?_⟩
    rw [if_pos rfl]; rfl
  | succ fuel ih =>
    have hcomm : (fun i => alpha * p i + x i) = fun i => x i + alpha * p i := by funext i; ring
    rw [lineSearchLoop]
    simp only [hcomm]
    by_cases h : (cost fun i => x i + alpha * p i) + mu * viol (fun i => x i + alpha * p i) ≤ phi + alpha * eta * slope
    · rw [if_pos h]
      exact ⟨0, by omega, by simp, fun j hj => absurd hj (by omega), fun _ => by simp, fun h0 => absurd h0 (by omega)⟩
    · rw [if_neg h]
      obtain ⟨k, hk, e1, e2, e3, e4⟩ := ih (tau * alpha) (cost fun i => x i + alpha * p i)
      have hp : ∀ j, tau ^ j * (tau * alpha) = tau ^ (j + 1) * alpha := fun j => by ring
      refine ⟨k + 1, by omega, by rw [e1, hp], fun j hj => ?_, fun hlt => ?_, fun he => ?_⟩
      · cases j with
        | zero => simpa only [pow_zero, one_mul] using h
        | succ j => rw [← hp]; exact e2 j (by omega)
      · rw [e3 (by omega), hp]
      · rw [e4 (by omega), if_neg (Nat.succ_ne_zero fuel), Nat.add_sub_cancel]
        by_cases h0 : fuel = 0
        · rw [if_pos h0, h0, pow_zero, one_mul]
        · rw [if_neg h0, hp, Nat.sub_add_cancel (by omega)]

/-- What the last line search has left: the returned point is `x + tau ^ k p`, and `c` is the logged cost. -/
structure Logged (cfg : Settings K) (prob : Problem K n me mi) (old : K) (x p : Fin n → K) (k : ℕ) (c : K) : Prop where
  /-- at most `line_search_max_iter - 1` steps have been tried -/
  tries : k ≤ (cfg.lineSearchMaxIter - 1).toNat
  /-- accepted -/
  accepted : k < (cfg.lineSearchMaxIter - 1).toNat → c = prob.cost (x + cfg.tau ^ k • p)
  /-- given up: the cost is the one of the step tried before -/
  gaveUp : k = (cfg.lineSearchMaxIter - 1).toNat → 0 < k → c = prob.cost (x + cfg.tau ^ (k - 1) • p)
  /-- no line search -/
  off : cfg.lineSearchMaxIter ≤ 1 → c = old

theorem lineSearch_logged (eps : K) (cfg : Settings K) (prob : Problem K n me mi) (bd : Bounds K n mi) (h : Fin n → K)
    (lamK : Dual K n me mi) (x p : Fin n → K) (old : K) :
    ∃ k, (lineSearch eps cfg prob bd h lamK x p old).1 = cfg.tau ^ k ∧ Logged cfg prob old x p k (lineSearch eps cfg prob bd h lamK x p old).2 := by
  obtain ⟨k, hk, e1, -, e3, e4⟩ := lineSearchLoop_cost cfg.tau cfg.eta (prob.cost x + infNorm lamK * constraintsViolation eps prob bd x)
    (h ⬝ᵥ p - infNorm lamK * constraintsViolation eps prob bd x) (infNorm lamK) prob.cost (constraintsViolation eps prob bd) x p
    (cfg.lineSearchMaxIter - 1).toNat 1 old
  simp only [mul_one] at e1 e3 e4
  refine ⟨k, e1, hk, fun hlt => e3 hlt, fun he h0 => ?_, fun hl => ?_⟩
  · refine (e4 he).trans ?_
    rw [if_neg (by omega), he]; rfl
  · refine (e4 (by omega)).trans ?_
    rw [if_pos (by omega)]

variable [NeZero n] {env : Env K n me mi prec qps} {st r : State K n me mi prec qps} {eps : K}

theorem callback_cost (env : Env K n me mi prec qps) (s : State K n me mi prec qps) : (callback env s).cost = s.cost := by
  unfold callback
  split_ifs <;> rfl

/-- Every iteration leaves its point and the logged cost like this. -/
theorem visited_logged (hs : env.stepSize = lineSearch eps env.cfg env.prob env.bd) {s : State K n me mi prec qps} (h : Visited env st s) :
    ∃ x p k old, s.x = x + env.cfg.tau ^ k • p ∧ s.primalNorm = env.cfg.tau ^ k * infNorm p ∧ Logged env.cfg env.prob old x p k s.cost ∧
      (env.cfg.lineSearchMaxIter ≤ 1 → old = st.cost) := by
  have step : ∀ q s' : State K n me mi prec qps, qpStep env q = some s' → ∃ x p k, s'.x = x + env.cfg.tau ^ k • p ∧
      s'.primalNorm = env.cfg.tau ^ k * infNorm p ∧ Logged env.cfg env.prob q.cost x p k s'.cost := by
    intro q s' hq
    obtain ⟨_, _, p, lamK, a, c, -, -, -, h4, -, h6, h7, -, -, h10, -⟩ := qpStep_spec hq
    rw [hs] at h4
    obtain ⟨k, k1, k2⟩ := lineSearch_logged eps env.cfg env.prob env.bd s'.qp.h lamK q.x p q.cost
    have ha : a = env.cfg.tau ^ k := by rw [← k1, ← h4]
    rw [← h4] at k2
    refine ⟨q.x, p, k, ?_, by rw [h10, ha], by rw [h6]; exact k2⟩
    rw [h7, ha]; rfl
  induction h with
  | first h1 =>
    unfold firstPass at h1
    rw [Option.map_eq_some_iff] at h1
    obtain ⟨s', h2, rfl⟩ := h1
    obtain ⟨x, p, k, g1, g2, g3⟩ := step _ _ h2
    exact ⟨x, p, k, st.cost, g1, g2, g3, fun _ => rfl⟩
  | @next v s' hv ht hi hp ih =>
    obtain ⟨s1, s2, h1, h2, rfl⟩ := pass_parts hp
    obtain ⟨H, -, rfl⟩ := updateLinearisation_spec h1
    obtain ⟨x, p, k, g1, g2, g3⟩ := step _ _ h2
    obtain ⟨c1, -, -, -, c5, -⟩ := callback_fields env s2
    refine ⟨x, p, k, v.cost, by rw [← g1]; exact c1, by rw [← g2]; exact c5, ?_, fun hl => ?_⟩
    · have e : (measure env (callback env s2)).cost = s2.cost := callback_cost env s2
      rw [e]; exact g3
    · obtain ⟨_, _, _, old, -, -, i3, i4⟩ := ih
      rw [i3.off hl, i4 hl]

/-- C208. After `solve` the logged cost is the one of the returned point if the last line search accepted a step; if it gave
up, it is the cost of the last step tried, which is longer than the one taken; and without line search (`line_search_max_iter
≤ 1`) it is the value from before `solve`. -/
theorem cost_logged (hs : env.stepSize = lineSearch eps env.cfg env.prob env.bd) (h : solve env st = some r) :
    (∃ x p k old, r.x = x + env.cfg.tau ^ k • p ∧ r.primalNorm = env.cfg.tau ^ k * infNorm p ∧ Logged env.cfg env.prob old x p k r.cost) ∧
    (env.cfg.lineSearchMaxIter ≤ 1 → r.cost = st.cost) := by
  obtain ⟨s, hv, hr⟩ := solve_cases h
  obtain ⟨x, p, k, old, g1, g2, g3, g4⟩ := visited_logged hs hv
  rcases hr with ⟨-, rfl⟩ | ⟨-, -, rfl⟩ <;> exact ⟨⟨x, p, k, old, g1, g2, g3⟩, fun hl => (g3.off hl).trans (g4 hl)⟩

/-- C208. With line search, the cost reported with `SOLVED` is the cost of a point within `(1/tau - 1) eps_prim` of the
returned one. -/
theorem solved_cost (hs : env.stepSize = lineSearch eps env.cfg env.prob env.bd) (h : solve env st = some r) (hr : r.status = .SOLVED)
    (h0 : 0 < env.cfg.tau) (h1 : env.cfg.tau ≤ 1) (hl : 1 < env.cfg.lineSearchMaxIter) :
    ∃ z, r.cost = env.prob.cost z ∧ ∀ i, |z i - r.x i| ≤ (1 / env.cfg.tau - 1) * env.cfg.epsPrim := by
  obtain ⟨⟨x, p, k, old, g1, g2, g3⟩, -⟩ := cost_logged hs h
  have hp : r.primalNorm ≤ env.cfg.epsPrim := by
    obtain ⟨s, hv, hc⟩ := solve_cases h
    rcases hc with ⟨ht, rfl⟩ | ⟨ht, hi, hc⟩
    · unfold terminated at ht
      rw [Bool.and_eq_true, Bool.and_eq_true] at ht
      exact of_decide_eq_true ht.1.1
    · exfalso
      have : s.status = .MAX_ITER_EXCEEDED := by
        clear h hr g1 g2 g3 hi ht hc
        induction hv with
        | first h1 =>
          unfold firstPass at h1
          rw [Option.map_eq_some_iff] at h1
          obtain ⟨s', h2, rfl⟩ := h1
          obtain ⟨_, _, _, _, _, _, -, -, -, -, -, -, -, -, -, -, -, -, k3, -⟩ := qpStep_spec h2
          exact k3
        | next _ _ _ hp ih => rw [(pass_spec hp).2.1]; exact ih
      rw [hc, this] at hr
      exact absurd hr (by decide)
  have ht : 0 ≤ 1 / env.cfg.tau - 1 := by rw [sub_nonneg, le_div_iff₀ h0]; linarith
  have hn : 0 ≤ r.primalNorm := by rw [g2]; exact mul_nonneg (pow_pos h0 _).le (infNorm_nonneg _)
  rcases Nat.lt_or_ge k (env.cfg.lineSearchMaxIter - 1).toNat with hk | hk
  · refine ⟨r.x, by rw [g1]; exact g3.accepted hk, fun i => ?_⟩
    rw [sub_self, abs_zero]
    exact mul_nonneg ht (hn.trans hp)
  · have hk' : k = (env.cfg.lineSearchMaxIter - 1).toNat := le_antisymm g3.tries hk
    have hk0 : 0 < k := by omega
    refine ⟨_, g3.gaveUp hk' hk0, fun i => ?_⟩
    obtain ⟨j, rfl⟩ : ∃ j, k = j + 1 := ⟨k - 1, by omega⟩
    have e : (x + env.cfg.tau ^ j • p) i - r.x i = (1 / env.cfg.tau - 1) * (env.cfg.tau ^ (j + 1) * p i) := by
      rw [g1]
      show x i + env.cfg.tau ^ j * p i - (x i + env.cfg.tau ^ (j + 1) * p i) = _
      rw [pow_succ]; field_simp; ring
    rw [Nat.add_sub_cancel, e, abs_mul, abs_of_nonneg ht, abs_mul, abs_of_pos (pow_pos h0 _)]
    refine mul_le_mul_of_nonneg_left (le_trans ?_ hp) ht
    rw [g2]
    exact mul_le_mul_of_nonneg_left (le_infNorm p i) (pow_pos h0 _).le

/-! ## The reported cost can be that of another point -/

/-- C208. With `line_search_max_iter = 1` a new solver reports the cost `0` with `SOLVED`, although the cost of the returned
point `0` is `25/2`. -/
theorem cost_stale : ∃ r, solve (demoEnv { (Settings.default : Settings ℚ) with lineSearchMaxIter := 1 } 0) (demoState 3 0) = some r ∧
    r.status = .SOLVED ∧ r.x = (fun _ => 0) ∧ r.cost = 0 ∧ (demoProblem 0).cost r.x = 25 / 2 := by
  have e : (solve (demoEnv { (Settings.default : Settings ℚ) with lineSearchMaxIter := 1 } 0) (demoState 3 0)).map
      (fun r => (decide (r.status = .SOLVED), r.x 0, r.cost, (demoProblem 0).cost r.x)) = some (true, 0, 0, 25 / 2) := by decide +kernel
  rw [Option.map_eq_some_iff] at e
  obtain ⟨r, hr, e⟩ := e
  simp only [Prod.mk.injEq] at e
  exact ⟨r, hr, of_decide_eq_true e.1, funext fun i => by rw [Subsingleton.elim i 0]; exact e.2.1, e.2.2.1, e.2.2.2⟩

/-- A QP solver for one variable without constraints. -/
def freeQPS : QPSolver ℚ 1 (0 + 0) where
  Mem := PUnit
  solve _ qp := (PUnit.unit, fun _ => -qp.h 0 / qp.H 0 0, fun _ => 0, 1)

/-- `demoQuartic` with the Hessian replaced by one, one trial step and one iteration. -/
def steepEnv : Env ℚ 1 0 0 (identityPrecond ℚ 1 (0 + 0)) freeQPS :=
  { (defaultEnv (1 / 10 ^ 15) { (Settings.default : Settings ℚ) with lineSearchMaxIter := 2, maxIter := 1 } demoQuartic
      ⟨fun _ => -10, fun _ => 10, Fin.elim0, Fin.elim0⟩ : Env ℚ 1 0 0 (identityPrecond ℚ 1 (0 + 0)) freeQPS) with regularise := fun _ => 1 }

def steepState : State ℚ 1 0 0 (identityPrecond ℚ 1 (0 + 0)) freeQPS :=
  ⟨fun _ => 1, fun _ => 0, fun _ => 0, ⟨0, 0, 0, 0, 0, 0, 0⟩, 0, 0, 0, .INVALID_SETTINGS, 0, 0, 0, 0, 0, PUnit.unit, PUnit.unit, []⟩

/-- C208. If the line search gives up, the reported cost is the one of the rejected step: minimising `x⁴` from `1` it is `81`,
the cost of `-3`, although the returned point `-1` has the cost `1`. -/
theorem cost_rejected : ∃ r, solve steepEnv steepState = some r ∧ r.x = (fun _ => -1) ∧ r.cost = 81 ∧ demoQuartic.cost r.x = 1 := by
  have e : (solve steepEnv steepState).map (fun r => (r.x 0, r.cost, demoQuartic.cost r.x)) = some (-1, 81, 1) := by decide +kernel
  rw [Option.map_eq_some_iff] at e
  obtain ⟨r, hr, e⟩ := e
  simp only [Prod.mk.injEq] at e
  exact ⟨r, hr, funext fun i => by rw [Subsingleton.elim i 0]; exact e.1, e.2.1, e.2.2⟩

/-- With the default settings the first example reports the cost of its solution. -/
example : (solve (demoEnv Settings.default 0) (demoState 3 0)).map (fun r => (decide (r.status = .SOLVED), r.x 0, r.cost)) = some (true, 0, 25 / 2) := by
  decide +kernel

end PolyMPC.Sqp
