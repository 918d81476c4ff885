import Verif.Lemmas.SqpLocal

/-!
# Properties C173 and C174 (SQP: rate of convergence near a solution)
-/

set_option linter.unusedSectionVars false

namespace PolyMPC.Sqp
open Matrix PolyMPC.Spec PolyMPC.QuasiNewton

variable {n me mi : ℕ}

section general
universe u
variable {K : Type u} [Field K] [LinearOrder K] [IsStrictOrderedRing K]
variable {prec : Precond K n (me + mi)} {qps : QPSolver K n (me + mi)}

/-- Without an override it is the solver of `Model/Sqp.lean`. -/
theorem solveWith_default [NeZero n] (env : Env K n me mi prec qps) (st : State K n me mi prec qps) : solveWith env (updateLinearisation env) st = solve env st := by
  have hloop : ∀ k s, loopWith env (updateLinearisation env) k s = loop env k s := by
    intro k
    induction k with
    | zero => intro s; rfl
    | succ k ih =>
      intro s
      rw [loop_succ, loopWith]
      simp only [ih]
      rfl
  unfold solveWith solve
  simp only [hloop]

theorem solveWith_eq [NeZero n] (env : Env K n me mi prec qps) (upd : State K n me mi prec qps → Option (State K n me mi prec qps)) (st : State K n me mi prec qps) :
    solveWith env upd st = (firstPass env st).bind fun s =>
      if terminated env s then some { s with status := .SOLVED } else loopWith env upd (env.cfg.maxIter - 1).toNat s := by
  unfold solveWith firstPass
  change (qpStep env (linearise env (start st))).bind _ = _
  cases h : qpStep env (linearise env (start st)) with
  | none => rfl
  | some s => rfl

/-- The states of a run: number `0` is the state with the guesses, number `k` the state after the `k`-th iteration, if the run gets there. -/
inductive Iterate [NeZero n] (env : Env K n me mi prec qps) (upd : State K n me mi prec qps → Option (State K n me mi prec qps)) (st : State K n me mi prec qps) :
    ℕ → State K n me mi prec qps → Prop
  | guess : Iterate env upd st 0 st
  | first {s} : firstPass env st = some s → Iterate env upd st 1 s
  | next {k v s} : Iterate env upd st (k + 1) v → terminated env v = false → v.iter < env.cfg.maxIter → passWith env upd v = some s → Iterate env upd st (k + 2) s

variable [NeZero n] {env : Env K n me mi prec qps} {upd : State K n me mi prec qps → Option (State K n me mi prec qps)} {st : State K n me mi prec qps}

theorem Iterate.unique {k : ℕ} {s s' : State K n me mi prec qps} (h : Iterate env upd st k s) (h' : Iterate env upd st k s') : s = s' := by
  induction h generalizing s' with
  | guess => cases h'; rfl
  | first h =>
    cases h' with
    | first h' => exact Option.some.inj (h.symm.trans h')
  | next hv ht hi hp ih =>
    cases h' with
    | next hv' ht' hi' hp' =>
      obtain rfl := ih hv'
      exact Option.some.inj (hp.symm.trans hp')

theorem Iterate.pred {k : ℕ} {s : State K n me mi prec qps} (h : Iterate env upd st (k + 1) s) : ∃ v, Iterate env upd st k v := by
  cases h with
  | first => exact ⟨st, .guess⟩
  | next hv => exact ⟨_, hv⟩

/-- The result of a run is the last iterate. -/
theorem solveWith_iterate {r : State K n me mi prec qps} (h : solveWith env upd st = some r) :
    ∃ k s, Iterate env upd st (k + 1) s ∧ ((terminated env s = true ∧ r = { s with status := .SOLVED }) ∨ (terminated env s = false ∧ r = s)) := by
  have hloop : ∀ fuel k s, Iterate env upd st (k + 1) s → terminated env s = false → ∀ r, loopWith env upd fuel s = some r →
      ∃ k s, Iterate env upd st (k + 1) s ∧ ((terminated env s = true ∧ r = { s with status := .SOLVED }) ∨ (terminated env s = false ∧ r = s)) := by
    intro fuel
    induction fuel with
    | zero => intro k s hs ht r h; exact ⟨k, s, hs, Or.inr ⟨ht, (Option.some.inj h).symm⟩⟩
    | succ fuel ih =>
      intro k s hs ht r h
      rw [loopWith] at h
      split_ifs at h with hi
      · rw [Option.bind_eq_some_iff] at h
        obtain ⟨s', h1, h2⟩ := h
        have hs' := Iterate.next hs ht hi h1
        split_ifs at h2 with ht'
        · exact ⟨k + 1, s', hs', Or.inl ⟨ht', (Option.some.inj h2).symm⟩⟩
        · exact ih (k + 1) s' hs' (by simpa using ht') r h2
      · exact ⟨k, s, hs, Or.inr ⟨ht, (Option.some.inj h).symm⟩⟩
  rw [solveWith_eq, Option.bind_eq_some_iff] at h
  obtain ⟨s, h1, h2⟩ := h
  split_ifs at h2 with ht
  · exact ⟨0, s, .first h1, Or.inl ⟨ht, (Option.some.inj h2).symm⟩⟩
  · exact hloop _ 0 s (.first h1) (by simpa using ht) r h2

/-- A run whose iterates satisfy an invariant that implies termination after `N` iterations. -/
theorem solveWith_of_inv (Inv : ℕ → State K n me mi prec qps → Prop) (h1 : ∃ s, firstPass env st = some s ∧ Inv 1 s)
    (hstep : ∀ k v, 1 ≤ k → Inv k v → ∃ s, passWith env upd v = some s ∧ Inv (k + 1) s) (hit : ∀ k s, Inv k s → s.iter = k) {N : ℕ} (hN : 1 ≤ N)
    (hmax : (N : ℤ) ≤ env.cfg.maxIter) (hT : ∀ s, Inv N s → terminated env s = true) :
    ∃ r, solveWith env upd st = some r ∧ r.status = .SOLVED ∧ r.iter ≤ N := by
  have hloop : ∀ fuel k s, Inv k s → 1 ≤ k → k < N → N ≤ k + fuel → ∃ r, loopWith env upd fuel s = some r ∧ r.status = .SOLVED ∧ r.iter ≤ N := by
    intro fuel
    induction fuel with
    | zero => intro k s _ _ h2 h3; omega
    | succ fuel ih =>
      intro k s hs hk hlt hle
      obtain ⟨s', h2, h3⟩ := hstep k s hk hs
      rw [loopWith, if_pos (by rw [hit k s hs]; omega), h2, Option.bind_some]
      by_cases ht : terminated env s' = true
      · rw [if_pos ht]
        exact ⟨_, rfl, rfl, by show s'.iter ≤ N; rw [hit _ _ h3]; exact_mod_cast hlt⟩
      · rw [if_neg ht]
        have hne : k + 1 ≠ N := fun h => ht (hT s' (h ▸ h3))
        exact ih (k + 1) s' h3 (by omega) (by omega) (by omega)
  obtain ⟨s, h2, h3⟩ := h1
  rw [solveWith_eq, h2, Option.bind_some]
  by_cases ht : terminated env s = true
  · rw [if_pos ht]
    exact ⟨_, rfl, rfl, by show s.iter ≤ N; rw [hit _ _ h3]; exact_mod_cast hN⟩
  · rw [if_neg ht]
    have hne : 1 ≠ N := fun h => ht (hT s (h ▸ h3))
    exact hloop _ 1 s h3 le_rfl (by omega) (by omega)

/-- What holds after an iteration with full step from `x0`, `lam0` with Hessian `H`. -/
structure Post (env : Env K n me mi prec qps) (x0 : Fin n → K) (lam0 : Dual K n me mi) (H : Matrix (Fin n) (Fin n) K) (s : State K n me mi prec qps) : Prop where
  kkt : (formQP env.bd x0 H (env.prob.costGrad x0) (env.prob.jac x0) (env.prob.constr x0)).KKT (s.x - x0) s.lam
  hess : s.qp.H = H
  primal : s.primalNorm = infNorm (s.x - x0)
  dual : s.dualNorm = infNorm (s.lam - lam0)
  viol : s.maxViolation = maxConstraintsViolation env.prob env.bd s.x

/-- All steps are full steps. -/
def FullSteps (env : Env K n me mi prec qps) : Prop := ∀ h l x p c, (env.stepSize h l x p c).1 = 1

/-- The line search is switched off by `line_search_max_iter = 1`. -/
theorem fullSteps_of_setting {eps : K} {cfg : Settings K} {prob : Problem K n me mi} {bd : Bounds K n mi} (h : cfg.lineSearchMaxIter = 1) :
    FullSteps (defaultEnv eps cfg prob bd : Env K n me mi prec qps) := by
  intro g l x p c
  show (lineSearch eps cfg prob bd g l x p c).1 = 1
  unfold lineSearch
  rw [h]
  rfl

theorem qpStep_full (hl : LawfulPrecond prec) (hpd : ∀ m qp, ∃ r, prec.compute m qp = some r) (hex : ExactQP qps) (hfull : FullSteps env) {q : State K n me mi prec qps}
    {H : Matrix (Fin n) (Fin n) K} (hq : q.qp = formQP env.bd q.x H (env.prob.costGrad q.x) (env.prob.jac q.x) (env.prob.constr q.x)) (hH : SPD H)
    (hk : ∃ p y, (formQP env.bd q.x H (env.prob.costGrad q.x) (env.prob.jac q.x) (env.prob.constr q.x)).KKT p y) :
    ∃ s, qpStep env q = some s ∧ Post env q.x q.lam H (measure env s) ∧ s.iter = q.iter ∧ s.status = q.status := by
  obtain ⟨c, hcm⟩ := hpd q.precMem q.qp
  obtain ⟨s, hs⟩ : ∃ s, qpStep env q = some s := ⟨_, by rw [qpStep, hcm]; rfl⟩
  have hHq : SPD q.qp.H := by rw [hq]; exact hH
  obtain ⟨p, k1, k2, k3, k4, k5, k6⟩ := qpStep_exact hl hex hs hHq (by rw [hq]; exact hk)
  rw [hfull] at k3 k5 k6
  obtain ⟨_, _, p', lamK', α', _, -, -, -, m4, m5, -, -, -, -, -, m9, m10, m11, -⟩ := qpStep_spec hs
  have hα : α' = 1 := by
    have := congrArg Prod.fst m4
    rw [hfull] at this
    exact this
  have hx : s.x - q.x = p := by
    rw [k3]; funext i
    show q.x i + 1 * p i - q.x i = p i
    ring
  have hlam : s.lam = s.lamK := by
    rw [k5]; funext i
    show q.lam i + 1 * (s.lamK i - q.lam i) = s.lamK i
    ring
  refine ⟨s, hs, ⟨?_, ?_, ?_, ?_, rfl⟩, m10, m11⟩
  · show (formQP env.bd q.x H _ _ _).KKT (s.x - q.x) s.lam
    rw [hx, hlam, ← hq]; exact k1
  · show s.qp.H = H
    rw [k2, hq]; rfl
  · show s.primalNorm = infNorm (s.x - q.x)
    rw [k6, one_mul, hx]
  · show s.dualNorm = infNorm (s.lam - q.lam)
    rw [m9, hα, one_mul, hlam, m5]

theorem firstPass_post (hl : LawfulPrecond prec) (hpd : ∀ m qp, ∃ r, prec.compute m qp = some r) (hex : ExactQP qps) (hfull : FullSteps env)
    (hH : SPD (env.regularise (env.prob.lagHess st.x st.lam)))
    (hk : ∃ p y, (formQP env.bd st.x (env.regularise (env.prob.lagHess st.x st.lam)) (env.prob.costGrad st.x) (env.prob.jac st.x) (env.prob.constr st.x)).KKT p y) :
    ∃ s, firstPass env st = some s ∧ Post env st.x st.lam (env.regularise (env.prob.lagHess st.x st.lam)) s ∧ s.iter = 1 ∧ s.status = .MAX_ITER_EXCEEDED := by
  obtain ⟨s, h1, h2, h3, h4⟩ := qpStep_full (q := linearise env (start st)) hl hpd hex hfull rfl hH hk
  exact ⟨measure env s, by rw [firstPass, h1]; rfl, h2, h3, h4⟩

theorem passWith_post (hl : LawfulPrecond prec) (hpd : ∀ m qp, ∃ r, prec.compute m qp = some r) (hex : ExactQP qps) (hfull : FullSteps env) {v q : State K n me mi prec qps}
    {H : Matrix (Fin n) (Fin n) K} (hu : upd { v with iter := v.iter + 1 } = some q) (hx : q.x = v.x) (hlam : q.lam = v.lam) (hit : q.iter = v.iter + 1) (hst : q.status = v.status)
    (hq : q.qp = formQP env.bd v.x H (env.prob.costGrad v.x) (env.prob.jac v.x) (env.prob.constr v.x)) (hH : SPD H)
    (hk : ∃ p y, (formQP env.bd v.x H (env.prob.costGrad v.x) (env.prob.jac v.x) (env.prob.constr v.x)).KKT p y) :
    ∃ s, passWith env upd v = some s ∧ Post env v.x v.lam H s ∧ s.iter = v.iter + 1 ∧ s.status = v.status := by
  obtain ⟨s, h1, h2, h3, h4⟩ := qpStep_full (q := q) (H := H) hl hpd hex hfull (by rw [hx]; exact hq) hH (by rw [hx]; exact hk)
  obtain ⟨c1, c2, c3, c4, c5, c6, c7, -⟩ := callback_fields env s
  rw [hx, hlam] at h2
  refine ⟨measure env (callback env s), by rw [passWith, hu, Option.bind_some, h1]; rfl, ⟨?_, ?_, ?_, ?_, rfl⟩, ?_, ?_⟩
  · show (formQP env.bd v.x H _ _ _).KKT ((callback env s).x - v.x) (callback env s).lam
    rw [c1, c2]; exact h2.kkt
  · show (callback env s).qp.H = H
    rw [c7]; exact h2.hess
  · show (callback env s).primalNorm = infNorm ((callback env s).x - v.x)
    rw [c1, c5]; exact h2.primal
  · show (callback env s).dualNorm = infNorm ((callback env s).lam - v.lam)
    rw [c2, c6]; exact h2.dual
  · show (callback env s).iter = _
    rw [c3, h3, hit]
  · show (callback env s).status = _
    rw [c4, h4, hst]

end general

/-- Near the solution the constraint violation is bounded by the distance. -/
theorem violation_near [NeZero n] {prob : Problem ℝ n me mi} (hc : Coherent prob) {bd : Bounds ℝ n mi} {xs : Fin n → ℝ} {ys : Dual ℝ n me mi} (hs : Stationary prob bd xs ys)
    (hsm : Smooth prob xs ys) : ∃ r > 0, ∃ M ≥ 1, ∀ x, ‖x - xs‖ ≤ r → maxConstraintsViolation prob bd x ≤ M * ‖x - xs‖ := by
  obtain ⟨r, hr, L, hL⟩ := hsm
  obtain ⟨b, hb, hbb⟩ := exists_entry_bound (prob.jac xs)
  refine ⟨min r 1, by positivity, n * max L 1 + n * b + 1, ?_, fun x hx => ?_⟩
  · have : 0 ≤ n * max L 1 + n * b := by positivity
    linarith
  have hxr := hx.trans (min_le_left _ _)
  have hx1 := hx.trans (min_le_right _ _)
  have he0 := norm_nonneg (x - xs)
  have hL0 : 0 < max L 1 := lt_of_lt_of_le one_pos (le_max_right _ _)
  have h1 : ‖prob.constr x - prob.constr xs - prob.jac xs *ᵥ (x - xs)‖ ≤ n * (max L 1 * ‖x - xs‖) * ‖x - xs‖ :=
    linear_error (F := prob.jac) (by positivity) (fun w hw => (hL w (hw.trans hxr)).1) fun w hw i j =>
      ((hL w (hw.trans hxr)).2.2.1 i j).trans (mul_le_mul (le_max_left _ _) hw (norm_nonneg _) hL0.le)
  have h2 := mulVec_le hb.le hbb (x - xs)
  rw [Fintype.card_fin] at h2
  have h3 : ‖prob.constr x - prob.constr xs‖ ≤ (n * max L 1 + n * b + 1) * ‖x - xs‖ := by
    have h4 := norm_add_le (prob.constr x - prob.constr xs - prob.jac xs *ᵥ (x - xs)) (prob.jac xs *ᵥ (x - xs))
    rw [sub_add_cancel] at h4
    have h5 : n * (max L 1 * ‖x - xs‖) * ‖x - xs‖ ≤ n * max L 1 * ‖x - xs‖ := by
      have : 0 ≤ n * max L 1 * ‖x - xs‖ := by positivity
      nlinarith
    nlinarith
  have h4 : ‖x - xs‖ ≤ (n * max L 1 + n * b + 1) * ‖x - xs‖ := by
    have : 0 ≤ (n * max L 1 + n * b) * ‖x - xs‖ := by positivity
    nlinarith
  have hcomp : ∀ i, |prob.constr x i - prob.constr xs i| ≤ (n * max L 1 + n * b + 1) * ‖x - xs‖ := fun i => (norm_le_pi_norm (prob.constr x - prob.constr xs) i).trans h3
  have hxc : ∀ i, |x i - xs i| ≤ (n * max L 1 + n * b + 1) * ‖x - xs‖ := fun i => (norm_le_pi_norm (x - xs) i).trans h4
  obtain ⟨f1, f2, f3⟩ := hs.2.1
  rw [maxViolation_le_iff]
  refine ⟨he0.trans h4, fun i => ?_, fun i => ?_, fun i => ?_⟩
  · have := hcomp (Fin.castAdd mi i)
    rwa [(hc x).1, (hc xs).1, f1, sub_zero] at this
  · have h5 := abs_le.1 (hcomp (Fin.natAdd me i))
    rw [(hc x).2, (hc xs).2] at h5
    have := f2 i
    constructor <;> linarith [h5.1, h5.2, this.1, this.2]
  · have h5 := abs_le.1 (hxc i)
    have := f3 i
    constructor <;> linarith [h5.1, h5.2, this.1, this.2]

variable {prec : Precond ℝ n (me + mi)} {qps : QPSolver ℝ n (me + mi)}

/-- Distance of the primal and dual iterates from the solution. -/
noncomputable def err (xs : Fin n → ℝ) (ys : Dual ℝ n me mi) (s : State ℝ n me mi prec qps) : ℝ := max ‖s.x - xs‖ ‖s.lam - ys‖

theorem err_nonneg (xs : Fin n → ℝ) (ys : Dual ℝ n me mi) (s : State ℝ n me mi prec qps) : 0 ≤ err xs ys s := (norm_nonneg _).trans (le_max_left _ _)

/-- The termination test after an iteration that at least halves the error. -/
theorem terminated_of [NeZero n] {env : Env ℝ n me mi prec qps} {xs : Fin n → ℝ} {ys : Dual ℝ n me mi} {v s : State ℝ n me mi prec qps} {H : Matrix (Fin n) (Fin n) ℝ} {M r a : ℝ}
    (hp : Post env v.x v.lam H s) (hM : 1 ≤ M) (hviol : ∀ x, ‖x - xs‖ ≤ r → maxConstraintsViolation env.prob env.bd x ≤ M * ‖x - xs‖) (hsr : err xs ys s ≤ r)
    (hv : err xs ys v ≤ a) (hs : err xs ys s ≤ a) (h1 : 2 * M * a ≤ env.cfg.epsPrim) (h2 : 2 * M * a ≤ env.cfg.epsDual) : terminated env s = true := by
  have ha : 0 ≤ a := (err_nonneg _ _ _).trans hv
  have hMa : a ≤ M * a := le_mul_of_one_le_left ha hM
  unfold terminated
  simp only [Bool.and_eq_true, decide_eq_true_eq]
  refine ⟨⟨?_, ?_⟩, ?_⟩
  · rw [hp.primal, infNorm_eq]
    have h3 := norm_sub_le (s.x - xs) (v.x - xs)
    rw [sub_sub_sub_cancel_right] at h3
    have h4 := (le_max_left ‖s.x - xs‖ ‖s.lam - ys‖).trans hs
    have h5 := (le_max_left ‖v.x - xs‖ ‖v.lam - ys‖).trans hv
    linarith
  · rw [hp.dual, infNorm_eq]
    have h3 := norm_sub_le (s.lam - ys) (v.lam - ys)
    rw [sub_sub_sub_cancel_right] at h3
    have h4 := (le_max_right ‖s.x - xs‖ ‖s.lam - ys‖).trans hs
    have h5 := (le_max_right ‖v.x - xs‖ ‖v.lam - ys‖).trans hv
    linarith
  · rw [hp.viol]
    have h3 := (le_max_left ‖s.x - xs‖ ‖s.lam - ys‖)
    refine (hviol s.x (h3.trans hsr)).trans ?_
    have := mul_le_mul_of_nonneg_left (h3.trans hs) (by linarith : (0 : ℝ) ≤ M)
    linarith

/-- If the termination test holds after an iteration that at least halves the error, the error before it was at most twice the tolerance. -/
theorem err_of_terminated {env : Env ℝ n me mi prec qps} {xs : Fin n → ℝ} {ys : Dual ℝ n me mi} {v s : State ℝ n me mi prec qps} {H : Matrix (Fin n) (Fin n) ℝ}
    [NeZero n] (hp : Post env v.x v.lam H s) (hs : err xs ys s ≤ err xs ys v / 2) (ht : terminated env s = true) : err xs ys v ≤ 2 * max env.cfg.epsPrim env.cfg.epsDual := by
  unfold terminated at ht
  simp only [Bool.and_eq_true, decide_eq_true_eq] at ht
  obtain ⟨⟨h1, h2⟩, -⟩ := ht
  rw [hp.primal, infNorm_eq] at h1
  rw [hp.dual, infNorm_eq] at h2
  have h3 : err xs ys v ≤ err xs ys s + max env.cfg.epsPrim env.cfg.epsDual := by
    refine max_le ?_ ?_
    · have h4 := norm_sub_le (s.x - xs) (s.x - v.x)
      rw [sub_sub_sub_cancel_left] at h4
      have h5 := le_max_left ‖s.x - xs‖ ‖s.lam - ys‖
      have h6 := le_max_left env.cfg.epsPrim env.cfg.epsDual
      unfold err
      linarith
    · have h4 := norm_sub_le (s.lam - ys) (s.lam - v.lam)
      rw [sub_sub_sub_cancel_left] at h4
      have h5 := le_max_right ‖s.x - xs‖ ‖s.lam - ys‖
      have h6 := le_max_right env.cfg.epsPrim env.cfg.epsDual
      unfold err
      linarith
  linarith

/-- What one iteration from `v` to `s` achieves: a full step, with new error at most `F` of the old one. -/
def Contracts [NeZero n] (env : Env ℝ n me mi prec qps) (xs : Fin n → ℝ) (ys : Dual ℝ n me mi) (F : ℝ → ℝ) (v s : State ℝ n me mi prec qps) : Prop :=
  (∃ H, Post env v.x v.lam H s) ∧ err xs ys s ≤ F (err xs ys v)

section run
variable [NeZero n] {env : Env ℝ n me mi prec qps} {upd : State ℝ n me mi prec qps → Option (State ℝ n me mi prec qps)} {st : State ℝ n me mi prec qps}
variable {xs : Fin n → ℝ} {ys : Dual ℝ n me mi} {F : ℝ → ℝ} {Good : State ℝ n me mi prec qps → Prop}

theorem iterates_good (h0 : ∃ s, firstPass env st = some s ∧ s.iter = 1 ∧ Good s ∧ Contracts env xs ys F st s)
    (hs : ∀ v, Good v → ∃ s, passWith env upd v = some s ∧ s.iter = v.iter + 1 ∧ Good s ∧ Contracts env xs ys F v s) :
    ∀ k s, Iterate env upd st (k + 1) s → Good s := by
  intro k s h
  generalize hk : k + 1 = j at h
  induction h generalizing k with
  | guess => omega
  | first h1 =>
    obtain ⟨s', h2, -, h3, -⟩ := h0
    obtain rfl := Option.some.inj (h1.symm.trans h2)
    exact h3
  | next hv ht hi hp ih =>
    obtain ⟨s', h2, -, h3, -⟩ := hs _ (ih _ rfl)
    obtain rfl := Option.some.inj (hp.symm.trans h2)
    exact h3

theorem iterates_contract (h0 : ∃ s, firstPass env st = some s ∧ s.iter = 1 ∧ Good s ∧ Contracts env xs ys F st s)
    (hs : ∀ v, Good v → ∃ s, passWith env upd v = some s ∧ s.iter = v.iter + 1 ∧ Good s ∧ Contracts env xs ys F v s) {k : ℕ} {v s : State ℝ n me mi prec qps}
    (hv : Iterate env upd st k v) (h : Iterate env upd st (k + 1) s) : Contracts env xs ys F v s := by
  have hgood := iterates_good h0 hs
  cases h with
  | first h1 =>
    obtain ⟨s', h2, -, -, h3⟩ := h0
    obtain rfl := Option.some.inj (h1.symm.trans h2)
    cases hv
    exact h3
  | next hv' ht hi hp =>
    obtain rfl := hv.unique hv'
    obtain ⟨s', h2, -, -, h3⟩ := hs _ (hgood _ _ hv)
    obtain rfl := Option.some.inj (hp.symm.trans h2)
    exact h3

theorem run_solved (h0 : ∃ s, firstPass env st = some s ∧ s.iter = 1 ∧ Good s ∧ Contracts env xs ys F st s)
    (hs : ∀ v, Good v → ∃ s, passWith env upd v = some s ∧ s.iter = v.iter + 1 ∧ Good s ∧ Contracts env xs ys F v s) {a : ℕ → ℝ} (ha0 : err xs ys st ≤ a 0)
    (ha : ∀ k e, 0 ≤ e → e ≤ a k → F e ≤ a (k + 1)) {r M : ℝ} (hM : 1 ≤ M) (hviol : ∀ x, ‖x - xs‖ ≤ r → maxConstraintsViolation env.prob env.bd x ≤ M * ‖x - xs‖) {N : ℕ}
    (hr : ∀ s, Good s → err xs ys s ≤ r) (hanti : a (N + 1) ≤ a N) (hmax : (N : ℤ) + 1 ≤ env.cfg.maxIter) (h1 : 2 * M * a N ≤ env.cfg.epsPrim) (h2 : 2 * M * a N ≤ env.cfg.epsDual) :
    ∃ r, solveWith env upd st = some r ∧ r.status = .SOLVED ∧ r.iter ≤ N + 1 := by
  have := solveWith_of_inv (env := env) (upd := upd) (st := st) (N := N + 1)
    (fun k s => s.iter = k ∧ Good s ∧ err xs ys s ≤ a k ∧ ∃ (v : State ℝ n me mi prec qps) (H : _), Post env v.x v.lam H s ∧ err xs ys v ≤ a (k - 1)) ?_ ?_ (fun k s h => h.1) (by omega) (by push_cast; exact hmax) ?_
  · exact_mod_cast this
  · obtain ⟨s, k1, k2, k3, ⟨H, k4⟩, k5⟩ := h0
    exact ⟨s, k1, by exact_mod_cast k2, k3, k5.trans (ha 0 _ (err_nonneg _ _ _) ha0), st, H, k4, ha0⟩
  · rintro k v hk ⟨i1, i2, i3, -⟩
    obtain ⟨s, k1, k2, k3, ⟨H, k4⟩, k5⟩ := hs v i2
    exact ⟨s, k1, by rw [k2, i1]; push_cast; rfl, k3, k5.trans (ha k _ (err_nonneg _ _ _) i3), v, H, k4, by simpa using i3⟩
  · rintro s ⟨i1, i2, i3, v, H, i4, i5⟩
    exact terminated_of i4 hM hviol (hr s i2) i5 (i3.trans hanti) h1 h2

/-- The error of a result reported as solved. -/
theorem run_accuracy (h0 : ∃ s, firstPass env st = some s ∧ s.iter = 1 ∧ Good s ∧ Contracts env xs ys F st s)
    (hs : ∀ v, Good v → ∃ s, passWith env upd v = some s ∧ s.iter = v.iter + 1 ∧ Good s ∧ Contracts env xs ys F v s)
    (hgs : ∀ s, Good s → s.status = .MAX_ITER_EXCEEDED) (hhalf : ∀ k v, Iterate env upd st k v → F (err xs ys v) ≤ err xs ys v / 2) {r : State ℝ n me mi prec qps} (h : solveWith env upd st = some r) (hr : r.status = .SOLVED) :
    ∃ v : State ℝ n me mi prec qps, err xs ys v ≤ 2 * max env.cfg.epsPrim env.cfg.epsDual ∧ err xs ys r ≤ F (err xs ys v) := by
  obtain ⟨k, s, h1, h2⟩ := solveWith_iterate h
  obtain ⟨v, hv⟩ := h1.pred
  obtain ⟨⟨H, hp⟩, hc⟩ := iterates_contract h0 hs hv h1
  rcases h2 with ⟨ht, rfl⟩ | ⟨ht, rfl⟩
  · exact ⟨v, err_of_terminated hp (hc.trans (hhalf k v hv)) ht, hc⟩
  · exfalso
    rw [hgs _ (iterates_good h0 hs k r h1)] at hr
    cases hr

end run

/-! ## C173 -/

/-- What the convergence theorems assume of the solver: the problem and the bounds, a preconditioner that is undone exactly, an exact QP solver and full steps. -/
structure Exactly (env : Env ℝ n me mi prec qps) (prob : Problem ℝ n me mi) (bd : Bounds ℝ n mi) : Prop where
  prob : env.prob = prob
  bd : env.bd = bd
  precond : LawfulPrecond prec
  computes : ∀ m qp, ∃ r, prec.compute m qp = some r
  qp : ExactQP qps
  full : FullSteps env

/-- Matrices near the Hessian of the Lagrangian at the solution are not changed by the regularisation. -/
def KeepsNear (reg : Matrix (Fin n) (Fin n) ℝ → Matrix (Fin n) (Fin n) ℝ) (W : Matrix (Fin n) (Fin n) ℝ) : Prop :=
  ∃ ε > 0, ∀ H, (∀ i j, |H i j - W i j| ≤ ε) → reg H = H

/-- **C173.** Near a regular solution, with the exact linearisation in every iteration and full steps, the errors converge quadratically: in every iteration the new error is at most `C` times the
square of the old one. `solve` reports `SOLVED` after at most `N + 1` iterations if `M ≤ tol * 2 ^ 2 ^ N` for both tolerances, and whenever it reports `SOLVED` the returned variables and
multipliers are within `4 C tol²` of the solution. -/
theorem exact_quadratic [NeZero n] {prob : Problem ℝ n me mi} (hc : Coherent prob) {bd : Bounds ℝ n mi} {xs : Fin n → ℝ} {ys : Dual ℝ n me mi} (hr : RegularSolution prob bd xs ys)
    (hsm : Smooth prob xs ys) {reg : Matrix (Fin n) (Fin n) ℝ → Matrix (Fin n) (Fin n) ℝ} (hreg : KeepsNear reg (prob.lagHess xs ys)) :
    ∃ δ > 0, ∃ C > 0, ∃ M > 0, C * δ ≤ 1 / 2 ∧ ∀ (prec : Precond ℝ n (me + mi)) (qps : QPSolver ℝ n (me + mi)) (env : Env ℝ n me mi prec qps), Exactly env prob bd → env.regularise = reg →
      ∀ st, err xs ys st ≤ δ →
        (∀ k v s, Iterate env (exactUpdate env) st k v → Iterate env (exactUpdate env) st (k + 1) s → err xs ys s ≤ C * err xs ys v ^ 2) ∧
        (∀ k s, Iterate env (exactUpdate env) st k s → C * err xs ys s ≤ (C * err xs ys st) ^ 2 ^ k) ∧
        (∀ N : ℕ, (N : ℤ) + 1 ≤ env.cfg.maxIter → M ≤ env.cfg.epsPrim * 2 ^ 2 ^ N → M ≤ env.cfg.epsDual * 2 ^ 2 ^ N →
          ∃ r, solveWith env (exactUpdate env) st = some r ∧ r.status = .SOLVED ∧ r.iter ≤ N + 1) ∧
        ∀ r, solveWith env (exactUpdate env) st = some r → r.status = .SOLVED → err xs ys r ≤ 4 * C * max env.cfg.epsPrim env.cfg.epsDual ^ 2 := by
  obtain ⟨δ0, hδ0, C0, hC0, hest⟩ := step_estimate hc hr hsm
  obtain ⟨rv, hrv, Mv, hMv, hviol⟩ := violation_near hc hr.stationary hsm
  obtain ⟨r, hr0, L, hL⟩ := hsm
  obtain ⟨ε, hε, hkeep⟩ := hreg
  set L' := max L 1 with hL'
  have hL'1 : 1 ≤ L' := le_max_right _ _
  have hL'0 : 0 < L' := lt_of_lt_of_le one_pos hL'1
  set C := C0 * (L' + 1) with hC
  have hC' : 0 < C := by positivity
  set δ := min (min (δ0 / L') (ε / L')) (min (min r rv) (1 / (2 * C))) with hδd
  have hδ : 0 < δ := by positivity
  have d1 : L' * δ ≤ δ0 := by rw [← le_div_iff₀' hL'0]; exact (min_le_left _ _).trans (min_le_left _ _)
  have d2 : L' * δ ≤ ε := by rw [← le_div_iff₀' hL'0]; exact (min_le_left _ _).trans (min_le_right _ _)
  have d3 : δ ≤ r := (min_le_right _ _).trans ((min_le_left _ _).trans (min_le_left _ _))
  have d4 : δ ≤ rv := (min_le_right _ _).trans ((min_le_left _ _).trans (min_le_right _ _))
  have d5 : C * δ ≤ 1 / 2 := by
    have : δ ≤ 1 / (2 * C) := (min_le_right _ _).trans (min_le_right _ _)
    rw [le_div_iff₀ (by positivity)] at this
    linarith
  have d6 : δ ≤ δ0 := le_trans (le_mul_of_one_le_left hδ.le hL'1) d1
  refine ⟨δ, hδ, C, hC', 2 * Mv / C, by positivity, d5, fun prec qps env hx hrg st hst => ?_⟩
  -- one iteration
  have key : ∀ v : State ℝ n me mi prec qps, err xs ys v ≤ δ →
      SPD (env.regularise (env.prob.lagHess v.x v.lam)) ∧
      (∃ p y, (formQP env.bd v.x (env.regularise (env.prob.lagHess v.x v.lam)) (env.prob.costGrad v.x) (env.prob.jac v.x) (env.prob.constr v.x)).KKT p y) ∧
      ∀ s, Post env v.x v.lam (env.regularise (env.prob.lagHess v.x v.lam)) s → err xs ys s ≤ C * err xs ys v ^ 2 ∧ err xs ys s ≤ δ := by
    intro v hv
    have e0 := err_nonneg xs ys v
    have hvx : ‖v.x - xs‖ ≤ err xs ys v := le_max_left _ _
    have hvl : ‖v.lam - ys‖ ≤ err xs ys v := le_max_right _ _
    obtain ⟨hsym, hlip⟩ := (hL v.x (hvx.trans (hv.trans d3))).2.2.2 v.lam (hvl.trans (hv.trans d3))
    have hnear : ∀ i j, |prob.lagHess v.x v.lam i j - prob.lagHess xs ys i j| ≤ L' * err xs ys v := fun i j =>
      (hlip i j).trans (mul_le_mul_of_nonneg_right (le_max_left _ _) e0)
    have hle : L' * err xs ys v ≤ L' * δ := mul_le_mul_of_nonneg_left hv hL'0.le
    have hH : env.regularise (env.prob.lagHess v.x v.lam) = prob.lagHess v.x v.lam := by
      rw [hrg, hx.prob]
      exact hkeep _ fun i j => (hnear i j).trans (hle.trans d2)
    obtain ⟨k1, k2, k3⟩ := hest v.x (prob.lagHess v.x v.lam) (L' * err xs ys v) (hvx.trans (hv.trans d6)) hsym (by positivity) (hle.trans d1) hnear
    rw [hH, hx.prob, hx.bd]
    refine ⟨k1, k2, fun s hp => ?_⟩
    have hk := hp.kkt
    rw [hx.prob, hx.bd] at hk
    obtain ⟨b1, b2⟩ := k3 _ _ hk
    rw [add_sub_cancel] at b1
    have hb : C0 * (L' * err xs ys v + ‖v.x - xs‖) * ‖v.x - xs‖ ≤ C * err xs ys v ^ 2 := by
      calc C0 * (L' * err xs ys v + ‖v.x - xs‖) * ‖v.x - xs‖ ≤ C0 * (L' * err xs ys v + err xs ys v) * err xs ys v :=
            mul_le_mul (mul_le_mul_of_nonneg_left (by linarith) hC0.le) hvx (norm_nonneg _) (by positivity)
        _ = C * err xs ys v ^ 2 := by rw [hC]; ring
    have h1 : err xs ys s ≤ C * err xs ys v ^ 2 := max_le (b1.trans hb) (b2.trans hb)
    refine ⟨h1, h1.trans ?_⟩
    have h2 : C * err xs ys v ≤ 1 / 2 := (mul_le_mul_of_nonneg_left hv hC'.le).trans d5
    nlinarith
  have h0 : ∃ s, firstPass env st = some s ∧ s.iter = 1 ∧ (err xs ys s ≤ δ ∧ s.status = .MAX_ITER_EXCEEDED) ∧ Contracts env xs ys (fun e => C * e ^ 2) st s := by
    obtain ⟨k1, k2, k3⟩ := key st hst
    obtain ⟨s, h1, h2, h3, h4⟩ := firstPass_post hx.precond hx.computes hx.qp hx.full k1 k2
    exact ⟨s, h1, h3, ⟨(k3 s h2).2, h4⟩, ⟨_, h2⟩, (k3 s h2).1⟩
  have hs : ∀ v : State ℝ n me mi prec qps, (err xs ys v ≤ δ ∧ v.status = .MAX_ITER_EXCEEDED) → ∃ s, passWith env (exactUpdate env) v = some s ∧ s.iter = v.iter + 1 ∧
      (err xs ys s ≤ δ ∧ s.status = .MAX_ITER_EXCEEDED) ∧ Contracts env xs ys (fun e => C * e ^ 2) v s := by
    rintro v ⟨hv, hvs⟩
    obtain ⟨k1, k2, k3⟩ := key v hv
    obtain ⟨s, h1, h2, h3, h4⟩ := passWith_post (upd := exactUpdate env) (v := v) hx.precond hx.computes hx.qp hx.full rfl rfl rfl rfl rfl rfl k1 k2
    exact ⟨s, h1, h3, ⟨(k3 s h2).2, h4.trans hvs⟩, ⟨_, h2⟩, (k3 s h2).1⟩
  have hcon := fun k v s => iterates_contract (k := k) (v := v) (s := s) h0 hs
  have hgood := iterates_good h0 hs
  have hsmall : ∀ k v, Iterate env (exactUpdate env) st k v → err xs ys v ≤ δ := by
    rintro (_ | k) v hv
    · cases hv; exact hst
    · exact (hgood k v hv).1
  refine ⟨fun k v s hv h => (hcon k v s hv h).2, fun k => ?_, fun N hmax hp hd => ?_, fun r hrun hsol => ?_⟩
  · induction k with
    | zero => intro s h; cases h; simp
    | succ k ih =>
      intro s h
      obtain ⟨v, hv⟩ := h.pred
      have h1 := (hcon k v s hv h).2
      have h2 := ih v hv
      calc C * err xs ys s ≤ C * (C * err xs ys v ^ 2) := mul_le_mul_of_nonneg_left h1 hC'.le
        _ = (C * err xs ys v) ^ 2 := by ring
        _ ≤ ((C * err xs ys st) ^ 2 ^ k) ^ 2 := pow_le_pow_left₀ (mul_nonneg hC'.le (err_nonneg _ _ _)) h2 2
        _ = _ := by rw [← pow_mul, pow_succ]
  · have hpow : ∀ k : ℕ, 0 < (1 / 2 : ℝ) ^ 2 ^ k := fun k => by positivity
    have hle1 : ∀ k : ℕ, (1 / 2 : ℝ) ^ 2 ^ k ≤ 1 := fun k => pow_le_one₀ (by norm_num) (by norm_num)
    have hsq : ∀ k : ℕ, (1 / 2 : ℝ) ^ 2 ^ (k + 1) = ((1 / 2 : ℝ) ^ 2 ^ k) ^ 2 := fun k => by rw [← pow_mul, pow_succ]
    have hanti : ∀ k : ℕ, (1 / 2 : ℝ) ^ 2 ^ (k + 1) ≤ (1 / 2 : ℝ) ^ 2 ^ k := fun k => by rw [hsq]; nlinarith [hpow k, hle1 k]
    have htol : ∀ t : ℝ, 2 * Mv / C ≤ t * 2 ^ 2 ^ N → 2 * Mv * ((1 / 2) ^ 2 ^ N / C) ≤ t := by
      intro t ht
      have e : 2 * Mv * ((1 / 2 : ℝ) ^ 2 ^ N / C) = 2 * Mv / C / 2 ^ 2 ^ N := by rw [one_div, inv_pow]; field_simp
      rw [e, div_le_iff₀ (by positivity)]
      exact ht
    refine run_solved (a := fun k => (1 / 2) ^ 2 ^ k / C) (r := rv) (M := Mv) h0 hs ?_ ?_ hMv (by rw [hx.prob, hx.bd]; exact hviol) (fun s h => h.1.trans d4) ?_ hmax (htol _ hp) (htol _ hd)
    · show err xs ys st ≤ (1 / 2) ^ 2 ^ 0 / C
      rw [le_div_iff₀ hC', pow_zero, pow_one]
      have := (mul_le_mul_of_nonneg_left hst hC'.le).trans d5
      linarith
    · intro k e he0 he
      show C * e ^ 2 ≤ (1 / 2) ^ 2 ^ (k + 1) / C
      rw [le_div_iff₀ hC', hsq]
      rw [le_div_iff₀ hC'] at he
      calc C * e ^ 2 * C = (e * C) ^ 2 := by ring
        _ ≤ _ := pow_le_pow_left₀ (by positivity) he 2
    · exact div_le_div_of_nonneg_right (hanti N) hC'.le
  · have hhalf : ∀ k v, Iterate env (exactUpdate env) st k v → C * err xs ys v ^ 2 ≤ err xs ys v / 2 := fun k v hv => by
      have h1 := (mul_le_mul_of_nonneg_left (hsmall k v hv) hC'.le).trans d5
      have h2 := err_nonneg xs ys v
      nlinarith
    obtain ⟨v, h1, h2⟩ := run_accuracy h0 hs (fun s h => h.2) hhalf hrun hsol
    refine h2.trans ?_
    have := pow_le_pow_left₀ (err_nonneg xs ys v) h1 2
    have := mul_le_mul_of_nonneg_left this hC'.le
    refine this.trans (le_of_eq ?_)
    ring

/-! ## C174 -/

/-- The Hessian update maps symmetric matrices near `W` to such matrices. -/
def StaysNear (hu : Matrix (Fin n) (Fin n) ℝ → (Fin n → ℝ) → (Fin n → ℝ) → Option (Matrix (Fin n) (Fin n) ℝ)) (W : Matrix (Fin n) (Fin n) ℝ) (κ : ℝ) : Prop :=
  ∀ H s y, Hᵀ = H → (∀ i j, |H i j - W i j| ≤ κ) → ∃ H', hu H s y = some H' ∧ H'ᵀ = H' ∧ ∀ i j, |H' i j - W i j| ≤ κ

/-- **C174.** Near a regular solution, with full steps and any Hessian update that keeps matrices within some distance `κ` of the Hessian at the solution, the errors converge linearly with the rate `θ`
chosen beforehand, and `solve` reports `SOLVED` after at most `N + 1` iterations if `M θ ^ N` is at most both tolerances. -/
theorem inexact_linear [NeZero n] {prob : Problem ℝ n me mi} (hc : Coherent prob) {bd : Bounds ℝ n mi} {xs : Fin n → ℝ} {ys : Dual ℝ n me mi} (hr : RegularSolution prob bd xs ys)
    (hsm : Smooth prob xs ys) {reg : Matrix (Fin n) (Fin n) ℝ → Matrix (Fin n) (Fin n) ℝ} (hreg : KeepsNear reg (prob.lagHess xs ys)) {θ : ℝ} (hθ : 0 < θ) (hθ1 : θ ≤ 1) :
    ∃ κ0 > 0, ∀ κ > 0, κ ≤ κ0 → ∃ δ > 0, ∃ M > 0, ∀ (prec : Precond ℝ n (me + mi)) (qps : QPSolver ℝ n (me + mi)) (env : Env ℝ n me mi prec qps), Exactly env prob bd →
      env.regularise = reg → StaysNear env.hessUpdate (prob.lagHess xs ys) κ → ∀ st, err xs ys st ≤ δ →
        (∀ k v s, Iterate env (updateLinearisation env) st k v → Iterate env (updateLinearisation env) st (k + 1) s → err xs ys s ≤ θ * err xs ys v) ∧
        (∀ N : ℕ, (N : ℤ) + 1 ≤ env.cfg.maxIter → M * θ ^ N ≤ env.cfg.epsPrim → M * θ ^ N ≤ env.cfg.epsDual →
          ∃ r, solve env st = some r ∧ r.status = .SOLVED ∧ r.iter ≤ N + 1) ∧
        (θ ≤ 1 / 2 → ∀ r, solve env st = some r → r.status = .SOLVED → err xs ys r ≤ 2 * θ * max env.cfg.epsPrim env.cfg.epsDual) := by
  obtain ⟨δ0, hδ0, C0, hC0, hest⟩ := step_estimate hc hr hsm
  obtain ⟨rv, hrv, Mv, hMv, hviol⟩ := violation_near hc hr.stationary hsm
  obtain ⟨r, hr0, L, hL⟩ := hsm
  obtain ⟨ε, hε, hkeep⟩ := hreg
  refine ⟨min δ0 (θ / (2 * C0)), by positivity, fun κ hκ hκ0 => ?_⟩
  have hκ1 : κ ≤ δ0 := hκ0.trans (min_le_left _ _)
  have hκ2 : C0 * κ ≤ θ / 2 := by
    have := hκ0.trans (min_le_right _ _)
    rw [le_div_iff₀ (by positivity)] at this
    linarith
  set L' := max L 1 with hL'
  have hL'1 : 1 ≤ L' := le_max_right _ _
  have hL'0 : 0 < L' := lt_of_lt_of_le one_pos hL'1
  set δ := min (min (κ / L') (ε / L')) (min (min r rv) (min δ0 (θ / (2 * C0)))) with hδd
  have hδ : 0 < δ := by positivity
  have d1 : L' * δ ≤ κ := by rw [← le_div_iff₀' hL'0]; exact (min_le_left _ _).trans (min_le_left _ _)
  have d2 : L' * δ ≤ ε := by rw [← le_div_iff₀' hL'0]; exact (min_le_left _ _).trans (min_le_right _ _)
  have d3 : δ ≤ r := (min_le_right _ _).trans ((min_le_left _ _).trans (min_le_left _ _))
  have d4 : δ ≤ rv := (min_le_right _ _).trans ((min_le_left _ _).trans (min_le_right _ _))
  have d6 : δ ≤ δ0 := (min_le_right _ _).trans ((min_le_right _ _).trans (min_le_left _ _))
  have d5 : C0 * δ ≤ θ / 2 := by
    have : δ ≤ θ / (2 * C0) := (min_le_right _ _).trans ((min_le_right _ _).trans (min_le_right _ _))
    rw [le_div_iff₀ (by positivity)] at this
    linarith
  refine ⟨δ, hδ, 2 * Mv * δ, by positivity, fun prec qps env hx hrg hup st hst => ?_⟩
  -- one iteration
  have key : ∀ (v : State ℝ n me mi prec qps) (H : Matrix (Fin n) (Fin n) ℝ), err xs ys v ≤ δ → Hᵀ = H → (∀ i j, |H i j - prob.lagHess xs ys i j| ≤ κ) →
      SPD H ∧ (∃ p y, (formQP env.bd v.x H (env.prob.costGrad v.x) (env.prob.jac v.x) (env.prob.constr v.x)).KKT p y) ∧
      ∀ s, Post env v.x v.lam H s → err xs ys s ≤ θ * err xs ys v ∧ err xs ys s ≤ δ := by
    intro v H hv hsym hnear
    have e0 := err_nonneg xs ys v
    have hvx : ‖v.x - xs‖ ≤ err xs ys v := le_max_left _ _
    obtain ⟨k1, k2, k3⟩ := hest v.x H κ (hvx.trans (hv.trans d6)) hsym hκ.le hκ1 hnear
    rw [hx.prob, hx.bd]
    refine ⟨k1, k2, fun s hp => ?_⟩
    have hk := hp.kkt
    rw [hx.prob, hx.bd] at hk
    obtain ⟨b1, b2⟩ := k3 _ _ hk
    rw [add_sub_cancel] at b1
    have hb : C0 * (κ + ‖v.x - xs‖) * ‖v.x - xs‖ ≤ θ * err xs ys v := by
      refine mul_le_mul ?_ hvx (norm_nonneg _) hθ.le
      have := mul_le_mul_of_nonneg_left (hvx.trans hv) hC0.le
      linarith
    have h1 : err xs ys s ≤ θ * err xs ys v := max_le (b1.trans hb) (b2.trans hb)
    exact ⟨h1, h1.trans ((mul_le_of_le_one_left e0 hθ1).trans hv)⟩
  have hst0 : (prob.lagHess st.x st.lam)ᵀ = prob.lagHess st.x st.lam ∧ (∀ i j, |prob.lagHess st.x st.lam i j - prob.lagHess xs ys i j| ≤ L' * δ) := by
    have hvx : ‖st.x - xs‖ ≤ δ := (le_max_left _ _).trans hst
    have hvl : ‖st.lam - ys‖ ≤ δ := (le_max_right _ _).trans hst
    obtain ⟨hsym, hlip⟩ := (hL st.x (hvx.trans d3)).2.2.2 st.lam (hvl.trans d3)
    exact ⟨hsym, fun i j => (hlip i j).trans (mul_le_mul (le_max_left _ _) (max_le hvx hvl) ((norm_nonneg _).trans (le_max_left _ _)) hL'0.le)⟩
  have hH0 : env.regularise (env.prob.lagHess st.x st.lam) = prob.lagHess st.x st.lam := by
    rw [hrg, hx.prob]
    exact hkeep _ fun i j => (hst0.2 i j).trans d2
  let Good : State ℝ n me mi prec qps → Prop := fun s =>
    err xs ys s ≤ δ ∧ s.status = .MAX_ITER_EXCEEDED ∧ s.qp.Hᵀ = s.qp.H ∧ ∀ i j, |s.qp.H i j - prob.lagHess xs ys i j| ≤ κ
  have h0 : ∃ s, firstPass env st = some s ∧ s.iter = 1 ∧ Good s ∧ Contracts env xs ys (fun e => θ * e) st s := by
    obtain ⟨k1, k2, k3⟩ := key st (prob.lagHess st.x st.lam) hst hst0.1 fun i j => (hst0.2 i j).trans d1
    obtain ⟨s, h1, h2, h3, h4⟩ := firstPass_post (env := env) (st := st) hx.precond hx.computes hx.qp hx.full (by rw [hH0]; exact k1) (by rw [hH0]; exact k2)
    rw [hH0] at h2
    exact ⟨s, h1, h3, ⟨(k3 s h2).2, h4, by rw [h2.hess]; exact hst0.1, by rw [h2.hess]; exact fun i j => (hst0.2 i j).trans d1⟩, ⟨_, h2⟩, (k3 s h2).1⟩
  have hs : ∀ v, Good v → ∃ s, passWith env (updateLinearisation env) v = some s ∧ s.iter = v.iter + 1 ∧ Good s ∧ Contracts env xs ys (fun e => θ * e) v s := by
    rintro v ⟨hv, hvs, hvsym, hvn⟩
    obtain ⟨H', u1, u2, u3⟩ := hup v.qp.H v.stepPrev (env.prob.lagGrad v.x v.lam - v.lagGradient) hvsym hvn
    obtain ⟨k1, k2, k3⟩ := key v H' hv u2 u3
    obtain ⟨s, h1, h2, h3, h4⟩ := passWith_post (upd := updateLinearisation env) (v := v)
      (q := { v with
        iter := v.iter + 1
        lagGradient := env.prob.lagGrad v.x v.lam
        qp := formQP env.bd v.x H' (env.prob.costGrad v.x) (env.prob.jac v.x) (env.prob.constr v.x) }) hx.precond hx.computes hx.qp hx.full
      (by unfold updateLinearisation; simp only [u1, Option.map_some]) rfl rfl rfl rfl rfl k1 k2
    exact ⟨s, h1, h3, ⟨(k3 s h2).2, h4.trans hvs, by rw [h2.hess]; exact u2, by rw [h2.hess]; exact u3⟩, ⟨_, h2⟩, (k3 s h2).1⟩
  have hcon := fun k v s => iterates_contract (k := k) (v := v) (s := s) h0 hs
  refine ⟨fun k v s hv h => (hcon k v s hv h).2, fun N hmax hp hd => ?_, fun hhalf r hrun hsol => ?_⟩
  · rw [← solveWith_default]
    have htol : ∀ t, 2 * Mv * δ * θ ^ N ≤ t → 2 * Mv * (θ ^ N * δ) ≤ t := fun t ht => by rw [mul_comm (θ ^ N), ← mul_assoc]; exact ht
    refine run_solved (a := fun k => θ ^ k * δ) (r := rv) (M := Mv) h0 hs ?_ ?_ hMv (by rw [hx.prob, hx.bd]; exact hviol) (fun s h => h.1.trans d4) ?_ hmax (htol _ hp) (htol _ hd)
    · show err xs ys st ≤ θ ^ 0 * δ
      rw [pow_zero, one_mul]; exact hst
    · intro k e _ he
      show θ * e ≤ θ ^ (k + 1) * δ
      rw [pow_succ, mul_comm (θ ^ k), mul_assoc]
      exact mul_le_mul_of_nonneg_left he hθ.le
    · exact mul_le_mul_of_nonneg_right (pow_le_pow_of_le_one hθ.le hθ1 (Nat.le_succ N)) hδ.le
  · rw [← solveWith_default] at hrun
    obtain ⟨v, h1, h2⟩ := run_accuracy h0 hs (fun s h => h.2.1) (fun k v _ => by
      have := err_nonneg xs ys v
      show θ * err xs ys v ≤ err xs ys v / 2
      nlinarith) hrun hsol
    refine h2.trans ?_
    have := mul_le_mul_of_nonneg_left h1 hθ.le
    linarith

end PolyMPC.Sqp
