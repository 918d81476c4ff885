import Verif.Model.SqpRounded
import Verif.Lemmas.RoundingOrder
import Verif.Props.Sqp

/-!
# C210, C211: the SQP solver in floating-point arithmetic

The bounds of the variables are kept up to a multiple of the unit roundoff that does not grow with the number of iterations,
but they are not kept exactly; and what `SOLVED` means.
-/

namespace PolyMPC.SqpR
open Matrix PolyMPC.Spec PolyMPC.Sqp PolyMPC.Rounding

set_option linter.unusedSectionVars false

variable {n me mi : ℕ} {prec : Precond ℝ n (me + mi)} {qps : QPSolver ℝ n (me + mi)} {ar : Arith} {ε : ℝ} {g : ℕ → ℝ}

/-! ## Without rounding this is the model of `Verif.Model.Sqp` -/

section exact
variable (sq : ℝ → ℝ)

theorem total_exact {k : ℕ} (v : Fin k → ℝ) : total (Arith.exact sq) v = ∑ i, v i := by
  simp [total, Arith.exact, dotProduct]

theorem constraintsViolation_exact (eps : ℝ) (prob : Problem ℝ n me mi) (bd : Bounds ℝ n mi) (x : Fin n → ℝ) :
    constraintsViolation (Arith.exact sq) eps prob bd x = Sqp.constraintsViolation eps prob bd x := by
  simp only [constraintsViolation, total_exact]
  rfl

theorem maxConstraintsViolation_exact [NeZero n] (prob : Problem ℝ n me mi) (bd : Bounds ℝ n mi) (x : Fin n → ℝ) :
    maxConstraintsViolation (Arith.exact sq) prob bd x = Sqp.maxConstraintsViolation prob bd x := rfl

theorem lineSearchLoop_exact (tau eta phi Dphi mu : ℝ) (cost viol : (Fin n → ℝ) → ℝ) (x p : Fin n → ℝ) (fuel : ℕ) :
    ∀ a l, lineSearchLoop (Arith.exact sq) tau eta phi Dphi mu cost viol x p fuel a l =
      Sqp.lineSearchLoop tau eta phi Dphi mu cost viol x p fuel a l := by
  induction fuel with
  | zero => intro a l; rfl
  | succ k ih =>
    intro a l
    rw [lineSearchLoop, Sqp.lineSearchLoop]
    have e : (Arith.exact sq).mulAdd mu (viol fun i => (Arith.exact sq).add ((Arith.exact sq).mul a (p i)) (x i))
        (cost fun i => (Arith.exact sq).add ((Arith.exact sq).mul a (p i)) (x i)) ≤
        (Arith.exact sq).mulAdd ((Arith.exact sq).mul a eta) Dphi phi ↔
        (cost fun i => a * p i + x i) + mu * (viol fun i => a * p i + x i) ≤ phi + a * eta * Dphi := by
      show mu * (viol fun i => a * p i + x i) + (cost fun i => a * p i + x i) ≤ a * eta * Dphi + phi ↔ _
      rw [add_comm (mu * _), add_comm (a * eta * Dphi)]
    by_cases h : (cost fun i => a * p i + x i) + mu * (viol fun i => a * p i + x i) ≤ phi + a * eta * Dphi
    · rw [if_pos (e.mpr h), if_pos h]; rfl
    · rw [if_neg (fun q => h (e.mp q)), if_neg h]
      exact ih _ _

theorem lineSearch_exact (eps : ℝ) (cfg : Settings ℝ) (prob : Problem ℝ n me mi) (bd : Bounds ℝ n mi) :
    lineSearch (Arith.exact sq) eps cfg prob bd = Sqp.lineSearch eps cfg prob bd := by
  funext h l x p c
  rw [lineSearch, Sqp.lineSearch]
  simp only [funext (constraintsViolation_exact sq eps prob bd), lineSearchLoop_exact]
  have e1 : (Arith.exact sq).mulAdd (infNorm l) (Sqp.constraintsViolation eps prob bd x) (prob.cost x) =
      prob.cost x + infNorm l * Sqp.constraintsViolation eps prob bd x := add_comm _ _
  have e2 : (Arith.exact sq).mulAdd (-infNorm l) (Sqp.constraintsViolation eps prob bd x) ((Arith.exact sq).dot n h p) =
      h ⬝ᵥ p - infNorm l * Sqp.constraintsViolation eps prob bd x := by
    show -infNorm l * _ + h ⬝ᵥ p = _; ring
  rw [e1, e2]

theorem qpStep_exact (env : Env ℝ n me mi prec qps) (st : State ℝ n me mi prec qps) :
    qpStep (Arith.exact sq) env st = Sqp.qpStep env st := by
  unfold qpStep Sqp.qpStep
  congr 1
  funext ⟨mem, scaled⟩
  simp only [Arith.exact]
  congr 1
  · funext i; ring
  · funext i; simp only [Pi.sub_apply]; ring

theorem linearise_exact (env : Env ℝ n me mi prec qps) (st : State ℝ n me mi prec qps) :
    linearise (Arith.exact sq) env st = Sqp.linearise env st := rfl

theorem updateLinearisation_exact (env : Env ℝ n me mi prec qps) (st : State ℝ n me mi prec qps) :
    updateLinearisation (Arith.exact sq) env st = Sqp.updateLinearisation env st := rfl

theorem loop_exact [NeZero n] (env : Env ℝ n me mi prec qps) (fuel : ℕ) : ∀ st, loop (Arith.exact sq) env fuel st = Sqp.loop env fuel st := by
  induction fuel with
  | zero => intro st; rfl
  | succ k ih =>
    intro st
    rw [loop, Sqp.loop]
    simp only [updateLinearisation_exact, qpStep_exact, ih]
    rfl

/-- With exact arithmetic the model is the one of `Verif.Model.Sqp`. -/
theorem solve_exact [NeZero n] (env : Env ℝ n me mi prec qps) (st : State ℝ n me mi prec qps) :
    solve (Arith.exact sq) env st = Sqp.solve env st := by
  unfold solve Sqp.solve
  simp only [linearise_exact, qpStep_exact, loop_exact]
  rfl

end exact

/-! ## The iterations of a run -/

/-- The first iteration of `solve`. -/
noncomputable def firstPass (ar : Arith) [NeZero n] (env : Env ℝ n me mi prec qps) (st : State ℝ n me mi prec qps) :
    Option (State ℝ n me mi prec qps) :=
  (qpStep ar env (linearise ar env (start st))).map (measure ar env)

/-- One further iteration of `solve`. -/
noncomputable def pass (ar : Arith) [NeZero n] (env : Env ℝ n me mi prec qps) (st : State ℝ n me mi prec qps) :
    Option (State ℝ n me mi prec qps) :=
  (updateLinearisation ar env { st with iter := st.iter + 1 }).bind fun st1 =>
    (qpStep ar env st1).map fun st2 => measure ar env (callback env st2)

/-- The states at the end of the iterations of `solve env st`. -/
inductive Reached (ar : Arith) [NeZero n] (env : Env ℝ n me mi prec qps) (st : State ℝ n me mi prec qps) :
    State ℝ n me mi prec qps → Prop
  | first {s} : firstPass ar env st = some s → Reached ar env st s
  | next {s s'} : Reached ar env st s → pass ar env s = some s' → Reached ar env st s'

theorem loop_succ [NeZero n] (env : Env ℝ n me mi prec qps) (fuel : ℕ) (st : State ℝ n me mi prec qps) :
    loop ar env (fuel + 1) st = if st.iter < env.cfg.maxIter then
      (pass ar env st).bind fun s => if terminated env s then some { s with status := .SOLVED } else loop ar env fuel s
      else some st := by
  unfold pass
  rw [loop]
  by_cases h : st.iter < env.cfg.maxIter
  · rw [if_pos h, if_pos h]
    cases h1 : updateLinearisation ar env { st with iter := st.iter + 1 } with
    | none => rfl
    | some st1 =>
      simp only [Option.bind_some]
      cases qpStep ar env st1 with
      | none => rfl
      | some st2 => rfl
  · rw [if_neg h, if_neg h]

theorem qpStep_spec {env : Env ℝ n me mi prec qps} {st s : State ℝ n me mi prec qps} (h : qpStep ar env st = some s) :
    ∃ mem scaled p lamK alpha logged, prec.compute st.precMem st.qp = some (mem, scaled) ∧
      (p, lamK) = prec.unscalePair mem ((qps.solve st.qpMem scaled).2.1, (qps.solve st.qpMem scaled).2.2.1) ∧
      (alpha, logged) = env.stepSize (prec.unscale mem scaled).h lamK st.x p st.cost ∧
      s.x = (fun i => ar.mulAdd alpha (p i) (st.x i)) ∧
      s.lam = (fun i => ar.mulAdd alpha (ar.sub (lamK i) (st.lam i)) (st.lam i)) ∧
      s.primalNorm = ar.mul alpha (infNorm p) ∧ s.dualNorm = ar.mul alpha (infNorm fun i => ar.sub (lamK i) (st.lam i)) ∧
      s.status = st.status := by
  unfold qpStep at h
  rw [Option.map_eq_some_iff] at h
  obtain ⟨⟨mem, scaled⟩, h1, h2⟩ := h
  subst h2
  exact ⟨mem, scaled, _, _, _, _, h1, rfl, rfl, rfl, rfl, rfl, rfl, rfl⟩

/-- Every iteration consists of one QP step from a linearisation at the starting point or at the previous iterate. -/
theorem reached_step [NeZero n] {env : Env ℝ n me mi prec qps} {st s : State ℝ n me mi prec qps} (h : Reached ar env st s) :
    ∃ q s2, ((q.x = st.x ∧ q.lam = st.lam) ∨ ∃ v, Reached ar env st v ∧ q.x = v.x ∧ q.lam = v.lam) ∧
      (∃ H, q.qp = formQP ar env.bd q.x H (env.prob.costGrad q.x) (env.prob.jac q.x) (env.prob.constr q.x)) ∧
      qpStep ar env q = some s2 ∧ s.x = s2.x ∧ s.lam = s2.lam ∧ s.primalNorm = s2.primalNorm ∧ s.dualNorm = s2.dualNorm ∧
      s.maxViolation = maxConstraintsViolation ar env.prob env.bd s.x := by
  cases h with
  | first hp =>
    unfold firstPass at hp
    rw [Option.map_eq_some_iff] at hp
    obtain ⟨s2, h2, rfl⟩ := hp
    exact ⟨linearise ar env (start st), s2, Or.inl ⟨rfl, rfl⟩, ⟨_, rfl⟩, h2, rfl, rfl, rfl, rfl, rfl⟩
  | @next v s hv hp =>
    unfold pass at hp
    rw [Option.bind_eq_some_iff] at hp
    obtain ⟨s1, h1, h2⟩ := hp
    rw [Option.map_eq_some_iff] at h2
    obtain ⟨s2, h3, rfl⟩ := h2
    unfold updateLinearisation at h1
    rw [Option.map_eq_some_iff] at h1
    obtain ⟨H, -, hs1⟩ := h1
    obtain ⟨c1, c2, -, -, c5, c6, -⟩ := callback_fields env s2
    have e1 : s1.x = v.x := by rw [← hs1]
    have e2 : s1.lam = v.lam := by rw [← hs1]
    have e3 : s1.qp = formQP ar env.bd s1.x H (env.prob.costGrad s1.x) (env.prob.jac s1.x) (env.prob.constr s1.x) := by
      rw [← hs1]
    exact ⟨s1, s2, Or.inr ⟨v, hv, e1, e2⟩, ⟨H, e3⟩, h3, c1, c2, c5, c6, rfl⟩

theorem reached_status [NeZero n] {env : Env ℝ n me mi prec qps} {st s : State ℝ n me mi prec qps} (h : Reached ar env st s) :
    s.status = .MAX_ITER_EXCEEDED := by
  induction h with
  | first hp =>
    unfold firstPass at hp
    rw [Option.map_eq_some_iff] at hp
    obtain ⟨s2, h2, rfl⟩ := hp
    obtain ⟨_, _, _, _, _, _, -, -, -, -, -, -, -, h8⟩ := qpStep_spec h2
    exact h8
  | @next v s hv hp ih =>
    unfold pass at hp
    rw [Option.bind_eq_some_iff] at hp
    obtain ⟨s1, h1, h2⟩ := hp
    rw [Option.map_eq_some_iff] at h2
    obtain ⟨s2, h3, rfl⟩ := h2
    unfold updateLinearisation at h1
    rw [Option.map_eq_some_iff] at h1
    obtain ⟨H, -, rfl⟩ := h1
    obtain ⟨_, _, _, _, _, _, -, -, -, -, -, -, -, h8⟩ := qpStep_spec h3
    show (callback env s2).status = _
    rw [(callback_fields env s2).2.2.2.1, h8]
    exact ih

theorem loop_reached [NeZero n] {env : Env ℝ n me mi prec qps} {st0 : State ℝ n me mi prec qps} (fuel : ℕ)
    {st r : State ℝ n me mi prec qps} (hv : Reached ar env st0 st) (h : loop ar env fuel st = some r) :
    ∃ s, Reached ar env st0 s ∧ ((terminated env s = true ∧ r = { s with status := .SOLVED }) ∨ r = s) := by
  induction fuel generalizing st with
  | zero =>
    rw [loop] at h
    exact ⟨st, hv, Or.inr (Option.some.inj h).symm⟩
  | succ fuel ih =>
    rw [loop_succ] at h
    by_cases hlt : st.iter < env.cfg.maxIter
    · rw [if_pos hlt, Option.bind_eq_some_iff] at h
      obtain ⟨s, hp, h2⟩ := h
      by_cases hts : terminated env s = true
      · rw [if_pos hts] at h2
        exact ⟨s, .next hv hp, Or.inl ⟨hts, (Option.some.inj h2).symm⟩⟩
      · rw [if_neg hts] at h2
        exact ih (.next hv hp) h2
    · rw [if_neg hlt] at h
      exact ⟨st, hv, Or.inr (Option.some.inj h).symm⟩

theorem solve_reached [NeZero n] {env : Env ℝ n me mi prec qps} {st r : State ℝ n me mi prec qps}
    (h : solve ar env st = some r) :
    ∃ s, Reached ar env st s ∧ ((terminated env s = true ∧ r = { s with status := .SOLVED }) ∨ r = s) := by
  have e : solve ar env st = (firstPass ar env st).bind fun s =>
      if terminated env s then some { s with status := .SOLVED } else loop ar env (env.cfg.maxIter - 1).toNat s := by
    unfold solve firstPass
    change ((qpStep ar env (linearise ar env (start st))).bind _) = _
    cases qpStep ar env (linearise ar env (start st)) with
    | none => rfl
    | some s => rfl
  rw [e, Option.bind_eq_some_iff] at h
  obtain ⟨s, hp, h2⟩ := h
  by_cases hts : terminated env s = true
  · rw [if_pos hts] at h2
    exact ⟨s, .first hp, Or.inl ⟨hts, (Option.some.inj h2).symm⟩⟩
  · rw [if_neg hts] at h2
    exact loop_reached _ (.first hp) h2

/-! ## C210: the bounds of the variables -/

/-- The step sizes of the line search are between zero and one, for every accuracy. -/
theorem lineSearch_range {F : Set ℝ} (ho : Ordered ar F) {eps : ℝ} {cfg : Settings ℝ} (h0 : 0 ≤ cfg.tau) (h1 : cfg.tau ≤ 1)
    (prob : Problem ℝ n me mi) (bd : Bounds ℝ n mi) (h : Fin n → ℝ) (lamK : Dual ℝ n me mi) (x p : Fin n → ℝ) (logged : ℝ) :
    0 ≤ (lineSearch ar eps cfg prob bd h lamK x p logged).1 ∧ (lineSearch ar eps cfg prob bd h lamK x p logged).1 ≤ 1 := by
  have key : ∀ (phi Dphi mu : ℝ) (cost viol : (Fin n → ℝ) → ℝ) (fuel : ℕ) (a l : ℝ), 0 ≤ a → a ≤ 1 → a ∈ F →
      0 ≤ (lineSearchLoop ar cfg.tau cfg.eta phi Dphi mu cost viol x p fuel a l).1 ∧
      (lineSearchLoop ar cfg.tau cfg.eta phi Dphi mu cost viol x p fuel a l).1 ≤ 1 := by
    intro phi Dphi mu cost viol fuel
    induction fuel with
    | zero => intro a l a0 a1 _; exact ⟨a0, a1⟩
    | succ k ih =>
      intro a l a0 a1 aF
      rw [lineSearchLoop]
      split_ifs with hc
      · exact ⟨a0, a1⟩
      · exact ih _ _ (ho.mul_nonneg _ _ h0 a0) ((ho.mul_le _ _ h0 h1 a0 aF).trans a1) (ho.mul_mem _ _)
  exact key _ _ _ _ _ _ _ _ zero_le_one le_rfl ho.one

/-- One step of one variable with respect to its upper bound: an excess over `ub` does not grow, or the new value exceeds the
bound by at most the error of the QP solution and a few roundings. -/
theorem upper_step {F : Set ℝ} (hu : Accurate ar ε g) (ho : Ordered ar F) (hε : ε ≤ 1 / 100) {a p x ub δ : ℝ} (a0 : 0 ≤ a) (a1 : a ≤ 1) (hδ : 0 ≤ δ)
    (hx : x ∈ F) (hp : p ≤ ar.sub ub x + δ) {C : ℝ} (hub : |ub| ≤ C) (hC : |x| ≤ C + (2 * δ + 9 * ε * C)) :
    ar.mulAdd a p x ≤ max x (ub + (2 * δ + 9 * ε * C)) := by
  rcases le_or_gt p 0 with hp0 | hp0
  · exact le_max_of_le_left (ho.mulAdd_le _ _ _ (mul_nonpos_of_nonneg_of_nonpos a0 hp0) hx)
  · refine le_max_of_le_right ?_
    have e0 := hu.eps0
    have hC0 : 0 ≤ C := (abs_nonneg _).trans hub
    have s := abs_le.mp (hu.sub ub x)
    have m := abs_le.mp (hu.mulAdd a p x)
    have hux : |ub - x| ≤ 2 * C + (2 * δ + 9 * ε * C) := by
      have := abs_sub ub x; linarith
    have hap : |a * p| ≤ p := by
      rw [abs_of_nonneg (mul_nonneg a0 hp0.le)]; nlinarith
    have hap' : a * p ≤ p := by nlinarith
    have hεC : 0 ≤ ε * C := mul_nonneg e0 hC0
    have hεδ : 0 ≤ ε * δ := mul_nonneg e0 hδ
    have hεεC : ε * (ε * C) ≤ 1 / 100 * (ε * C) := mul_le_mul_of_nonneg_right hε hεC
    have hεεδ : ε * (ε * δ) ≤ 1 / 100 * (ε * δ) := mul_le_mul_of_nonneg_right hε hεδ
    have hεδ1 : ε * δ ≤ 1 / 100 * δ := mul_le_mul_of_nonneg_right hε hδ
    -- errors of the difference
    have d1 : ε * |ub - x| ≤ 2 * (ε * C) + 2 * (ε * δ) + 9 / 100 * (ε * C) := by
      have := mul_le_mul_of_nonneg_left hux e0
      nlinarith
    have hp1 : p ≤ ub - x + 2 * (ε * C) + 2 * (ε * δ) + 9 / 100 * (ε * C) + δ := by linarith [s.2]
    have hub' := (le_abs_self (ub - x)).trans hux
    have hpb : p ≤ 213 / 100 * C + 31 / 10 * δ := by nlinarith
    have hxb : |x| ≤ 109 / 100 * C + 2 * δ := by nlinarith
    have hk : (1 + ε) ^ 2 - 1 ≤ 201 / 100 * ε := by nlinarith
    have hsum : |a * p| + |x| ≤ 322 / 100 * C + 51 / 10 * δ := by linarith
    have hsum0 : 0 ≤ |a * p| + |x| := by positivity
    have hk0 : 0 ≤ (1 + ε) ^ 2 - 1 := by nlinarith
    have d2 : ((1 + ε) ^ 2 - 1) * (|a * p| + |x|) ≤ 201 / 100 * ε * (322 / 100 * C + 51 / 10 * δ) :=
      mul_le_mul hk hsum hsum0 (by positivity)
    have d3 : 201 / 100 * ε * (322 / 100 * C + 51 / 10 * δ) = 201 / 100 * (322 / 100) * (ε * C) + 201 / 100 * (51 / 10) * (ε * δ) := by ring
    rw [d3] at d2
    have : ub + (2 * δ + 9 * ε * C) = ub + 2 * δ + 9 * (ε * C) := by ring
    rw [this]
    nlinarith [m.2]

/-- The same for the lower bound. -/
theorem lower_step {F : Set ℝ} (hu : Accurate ar ε g) (ho : Ordered ar F) (hε : ε ≤ 1 / 100) {a p x lb δ : ℝ} (a0 : 0 ≤ a) (a1 : a ≤ 1) (hδ : 0 ≤ δ)
    (hx : x ∈ F) (hp : ar.sub lb x - δ ≤ p) {C : ℝ} (hlb : |lb| ≤ C) (hC : |x| ≤ C + (2 * δ + 9 * ε * C)) :
    min x (lb - (2 * δ + 9 * ε * C)) ≤ ar.mulAdd a p x := by
  rcases le_or_gt 0 p with hp0 | hp0
  · exact min_le_of_left_le (ho.le_mulAdd _ _ _ (mul_nonneg a0 hp0) hx)
  · refine min_le_of_right_le ?_
    have e0 := hu.eps0
    have hC0 : 0 ≤ C := (abs_nonneg _).trans hlb
    have s := abs_le.mp (hu.sub lb x)
    have m := abs_le.mp (hu.mulAdd a p x)
    have hux : |lb - x| ≤ 2 * C + (2 * δ + 9 * ε * C) := by
      have := abs_sub lb x; linarith
    have hap : |a * p| ≤ -p := by
      rw [abs_of_nonpos (mul_nonpos_of_nonneg_of_nonpos a0 hp0.le)]; nlinarith
    have hap' : p ≤ a * p := by nlinarith
    have hεC : 0 ≤ ε * C := mul_nonneg e0 hC0
    have hεδ : 0 ≤ ε * δ := mul_nonneg e0 hδ
    have hεεC : ε * (ε * C) ≤ 1 / 100 * (ε * C) := mul_le_mul_of_nonneg_right hε hεC
    have hεεδ : ε * (ε * δ) ≤ 1 / 100 * (ε * δ) := mul_le_mul_of_nonneg_right hε hεδ
    have hεδ1 : ε * δ ≤ 1 / 100 * δ := mul_le_mul_of_nonneg_right hε hδ
    have d1 : ε * |lb - x| ≤ 2 * (ε * C) + 2 * (ε * δ) + 9 / 100 * (ε * C) := by
      have := mul_le_mul_of_nonneg_left hux e0
      nlinarith
    have hp1 : lb - x - (2 * (ε * C) + 2 * (ε * δ) + 9 / 100 * (ε * C) + δ) ≤ p := by linarith [s.1]
    have hub' := (neg_le_abs (lb - x)).trans hux
    have hpb : -p ≤ 213 / 100 * C + 31 / 10 * δ := by nlinarith
    have hxb : |x| ≤ 109 / 100 * C + 2 * δ := by nlinarith
    have hk : (1 + ε) ^ 2 - 1 ≤ 201 / 100 * ε := by nlinarith
    have hsum : |a * p| + |x| ≤ 322 / 100 * C + 51 / 10 * δ := by linarith
    have hsum0 : 0 ≤ |a * p| + |x| := by positivity
    have d2 : ((1 + ε) ^ 2 - 1) * (|a * p| + |x|) ≤ 201 / 100 * ε * (322 / 100 * C + 51 / 10 * δ) :=
      mul_le_mul hk hsum hsum0 (by positivity)
    have d3 : 201 / 100 * ε * (322 / 100 * C + 51 / 10 * δ) = 201 / 100 * (322 / 100) * (ε * C) + 201 / 100 * (51 / 10) * (ε * δ) := by ring
    rw [d3] at d2
    have : lb - (2 * δ + 9 * ε * C) = lb - 2 * δ - 9 * (ε * C) := by ring
    rw [this]
    nlinarith [m.1]

/-- C210: the amount by which a variable with bounds `lb` and `ub` may leave them: twice the error of the QP solver and a few
roundings of the bounds. -/
noncomputable def excess (ε δ lb ub : ℝ) : ℝ := 2 * δ + 9 * ε * max |lb| |ub|

/-- C210: in floating-point arithmetic all iterates satisfy the bounds of the variables up to `excess`, whatever their number, if
the starting point does and every QP step satisfies the shifted bounds up to `δ`. -/
theorem iterates_box [NeZero n] {F : Set ℝ} (hu : Accurate ar ε g) (ho : Ordered ar F) (hε : ε ≤ 1 / 100) {env : Env ℝ n me mi prec qps}
    {st : State ℝ n me mi prec qps} {δ : ℝ} (hδ : 0 ≤ δ) (hb : ∀ i, env.bd.lbx i ≤ env.bd.ubx i) (hqp : StepWithin prec qps δ)
    (hα : ∀ h l x p c, 0 ≤ (env.stepSize h l x p c).1 ∧ (env.stepSize h l x p c).1 ≤ 1) (hF : ∀ i, st.x i ∈ F)
    (h0 : ∀ i, env.bd.lbx i - excess ε δ (env.bd.lbx i) (env.bd.ubx i) ≤ st.x i ∧
      st.x i ≤ env.bd.ubx i + excess ε δ (env.bd.lbx i) (env.bd.ubx i)) {s : State ℝ n me mi prec qps} (h : Reached ar env st s) :
    ∀ i, env.bd.lbx i - excess ε δ (env.bd.lbx i) (env.bd.ubx i) ≤ s.x i ∧
      s.x i ≤ env.bd.ubx i + excess ε δ (env.bd.lbx i) (env.bd.ubx i) := by
  have step : ∀ q s2 : State ℝ n me mi prec qps, (∀ i, q.x i ∈ F ∧ env.bd.lbx i - excess ε δ (env.bd.lbx i) (env.bd.ubx i) ≤ q.x i ∧
      q.x i ≤ env.bd.ubx i + excess ε δ (env.bd.lbx i) (env.bd.ubx i)) →
      (∃ H, q.qp = formQP ar env.bd q.x H (env.prob.costGrad q.x) (env.prob.jac q.x) (env.prob.constr q.x)) →
      qpStep ar env q = some s2 → ∀ i, s2.x i ∈ F ∧ env.bd.lbx i - excess ε δ (env.bd.lbx i) (env.bd.ubx i) ≤ s2.x i ∧
      s2.x i ≤ env.bd.ubx i + excess ε δ (env.bd.lbx i) (env.bd.ubx i) := by
    rintro q s2 hq ⟨H, hH⟩ hs i
    obtain ⟨mem, scaled, p, lamK, alpha, logged, h1, h2, h3, hx, -⟩ := qpStep_spec hs
    obtain ⟨a0, a1⟩ := hα (prec.unscale mem scaled).h lamK q.x p q.cost
    rw [← h3] at a0 a1
    have hbox := hqp q.precMem mem q.qpMem q.qp scaled (by
      intro i
      rw [hH]
      exact ho.sub_mono _ _ _ (hb i)) h1 i
    rw [← h2, hH] at hbox
    obtain ⟨b1, b2⟩ := hbox
    obtain ⟨hqF, hq1, hq2⟩ := hq i
    have hC : |q.x i| ≤ max |env.bd.lbx i| |env.bd.ubx i| + (2 * δ + 9 * ε * max |env.bd.lbx i| |env.bd.ubx i|) := by
      have t1 := (abs_le.mp (le_max_left |env.bd.lbx i| |env.bd.ubx i|)).1
      have t2 := (abs_le.mp (le_max_right |env.bd.lbx i| |env.bd.ubx i|)).2
      unfold excess at hq1 hq2
      exact abs_le.mpr ⟨by linarith, by linarith⟩
    rw [hx]
    refine ⟨ho.mulAdd_mem _ _ _, ?_, ?_⟩
    · exact le_trans (le_min hq1 le_rfl) (lower_step hu ho hε a0 a1 hδ hqF b1 (le_max_left _ _) hC)
    · exact le_trans (upper_step hu ho hε a0 a1 hδ hqF b2 (le_max_right _ _) hC) (max_le hq2 le_rfl)
  have main : ∀ i, s.x i ∈ F ∧ env.bd.lbx i - excess ε δ (env.bd.lbx i) (env.bd.ubx i) ≤ s.x i ∧
      s.x i ≤ env.bd.ubx i + excess ε δ (env.bd.lbx i) (env.bd.ubx i) := by
    induction h with
    | first hp =>
      unfold firstPass at hp
      rw [Option.map_eq_some_iff] at hp
      obtain ⟨s2, h2, rfl⟩ := hp
      exact step (linearise ar env (start st)) s2 (fun i => ⟨hF i, h0 i⟩) ⟨_, rfl⟩ h2
    | @next v s hv hp ih =>
      unfold pass at hp
      rw [Option.bind_eq_some_iff] at hp
      obtain ⟨s1, h1, h2⟩ := hp
      rw [Option.map_eq_some_iff] at h2
      obtain ⟨s2, h3, rfl⟩ := h2
      unfold updateLinearisation at h1
      rw [Option.map_eq_some_iff] at h1
      obtain ⟨H, -, hs1⟩ := h1
      have e1 : s1.x = v.x := by rw [← hs1]
      have e3 : s1.qp = formQP ar env.bd s1.x H (env.prob.costGrad s1.x) (env.prob.jac s1.x) (env.prob.constr s1.x) := by
        rw [← hs1]
      have := step s1 s2 (by rw [e1]; exact ih) ⟨H, e3⟩ h3
      rw [← (callback_fields env s2).1] at this
      exact this
  exact fun i => (main i).2

/-- C210: the default line search, no preconditioner and a QP solver that respects the bounds: the returned point. -/
theorem solve_box [NeZero n] {F : Set ℝ} (hu : Accurate ar ε g) (ho : Ordered ar F) (hε : ε ≤ 1 / 100) {qps : QPSolver ℝ n (me + mi)} {eps : ℝ}
    {env : Env ℝ n me mi (identityPrecond ℝ n (me + mi)) qps} (h0 : 0 ≤ env.cfg.tau) (h1 : env.cfg.tau ≤ 1)
    {st r : State ℝ n me mi (identityPrecond ℝ n (me + mi)) qps}
    (hqp : ∀ m qp, (∀ i, qp.xlb i ≤ qp.xub i) → ∀ i, qp.xlb i ≤ (qps.solve m qp).2.1 i ∧ (qps.solve m qp).2.1 i ≤ qp.xub i)
    (hF : ∀ i, st.x i ∈ F) (hx : ∀ i, env.bd.lbx i ≤ st.x i ∧ st.x i ≤ env.bd.ubx i) (h : solve ar (searchEnv ar eps env) st = some r) :
    ∀ i, env.bd.lbx i - 9 * ε * max |env.bd.lbx i| |env.bd.ubx i| ≤ r.x i ∧
      r.x i ≤ env.bd.ubx i + 9 * ε * max |env.bd.lbx i| |env.bd.ubx i| := by
  obtain ⟨s, hv, hc⟩ := solve_reached h
  have hrs : r.x = s.x := by
    rcases hc with ⟨-, rfl⟩ | rfl <;> rfl
  have hex : ∀ i, 0 ≤ 9 * ε * max |env.bd.lbx i| |env.bd.ubx i| := fun i =>
    mul_nonneg (by linarith [hu.eps0]) ((abs_nonneg _).trans (le_max_left _ _))
  have := iterates_box hu ho hε (env := searchEnv ar eps env) (δ := 0) le_rfl (fun i => (hx i).1.trans (hx i).2)
    (fun mem mem' qm qp scaled hc hco i => by
      obtain rfl : qp = scaled := congrArg Prod.snd (Option.some.inj hco)
      simpa [identityPrecond] using hqp qm qp hc i)
    (fun h l x p c => lineSearch_range ho h0 h1 env.prob env.bd h l x p c) hF
    (fun i => by
      have := hex i
      have a := hx i
      simp only [excess, searchEnv]
      constructor <;> linarith) hv
  intro i
  have t := this i
  simp only [excess, searchEnv, mul_zero, zero_add] at t
  rw [hrs]
  exact t

/-! ## C211: what `SOLVED` means -/

theorem sub_le_of (hu : Accurate ar ε g) {a b t : ℝ} (h : ar.sub a b ≤ t) (ht : 0 ≤ t) : a - b ≤ t / (1 - ε) := by
  have h1 : 0 < 1 - ε := by linarith [hu.eps1]
  rw [le_div_iff₀ h1]
  have s := abs_le.mp (hu.sub a b)
  rcases le_or_gt (a - b) 0 with h0 | h0
  · nlinarith
  · rw [abs_of_pos h0] at s; nlinarith [s.1]

theorem mul_le_of (hu : Accurate ar ε g) {a b t : ℝ} (h : ar.mul a b ≤ t) (ha : 0 ≤ a) (hb : 0 ≤ b) : a * b ≤ t / (1 - ε) := by
  have h1 : 0 < 1 - ε := by linarith [hu.eps1]
  rw [le_div_iff₀ h1]
  have s := abs_le.mp (hu.mul a b)
  rw [abs_of_nonneg (mul_nonneg ha hb)] at s
  nlinarith [s.1]

/-- The largest violation that is computed bounds the violation of every constraint. -/
theorem maxViolation_bound [NeZero n] (hu : Accurate ar ε g) {prob : Problem ℝ n me mi} {bd : Bounds ℝ n mi} {x : Fin n → ℝ} {tol : ℝ}
    (h : maxConstraintsViolation ar prob bd x ≤ tol) :
    0 ≤ tol ∧ ViolatedByAtMost (tol / (1 - ε)) (prob.eq x) (prob.ineq x) bd.lbg bd.ubg x bd.lbx bd.ubx := by
  unfold maxConstraintsViolation at h
  simp only [max_le_iff, maxCoeff_le_iff] at h
  obtain ⟨⟨hc, hl⟩, hup⟩ := h
  have hc0 : (if 0 < me then infNorm (prob.eq x) else 0) ≤ tol := by
    by_cases hm : 0 < mi
    · rw [dif_pos hm] at hc; exact (le_max_left _ _).trans ((le_max_left _ _).trans hc)
    · rw [dif_neg hm] at hc; exact hc
  have h1 : 0 < 1 - ε := by linarith [hu.eps1]
  have ht : 0 ≤ tol := by
    refine le_trans ?_ hc0
    split_ifs
    · exact infNorm_nonneg _
    · exact le_rfl
  have htt : tol ≤ tol / (1 - ε) := by rw [le_div_iff₀ h1]; nlinarith [hu.eps0]
  refine ⟨ht, fun i => ?_, fun i => ?_, fun i => ?_⟩
  · rw [if_pos (Fin.pos i)] at hc0
    exact ((le_infNorm _ i).trans hc0).trans htt
  · have hm : 0 < mi := Fin.pos i
    have : NeZero mi := ⟨hm.ne'⟩
    rw [dif_pos hm] at hc
    simp only [max_le_iff, maxCoeff_le_iff] at hc
    have a := sub_le_of hu (hc.1.2 i) ht
    have b := sub_le_of hu (hc.2 i) ht
    constructor <;> linarith
  · have a := sub_le_of hu (hl i) ht
    have b := sub_le_of hu (hup i) ht
    constructor <;> linarith

/-- C211: if `solve` reports `SOLVED` then the returned point violates the constraints, as they are computed, by at most
`eps_prim / (1 - ε)`; the last iteration changed no variable and no multiplier by more than the tolerances, up to a few
roundings of the number itself. -/
theorem solved_float [NeZero n] (hu : Accurate ar ε g) {env : Env ℝ n me mi prec qps} {st r : State ℝ n me mi prec qps}
    (hstep : ∀ h l x p c, 0 ≤ (env.stepSize h l x p c).1) (h : solve ar env st = some r) (hs : r.status = .SOLVED) :
    ViolatedByAtMost (env.cfg.epsPrim / (1 - ε)) (env.prob.eq r.x) (env.prob.ineq r.x) env.bd.lbg env.bd.ubg r.x env.bd.lbx
      env.bd.ubx ∧
    ∃ x0 lam0, ((x0 = st.x ∧ lam0 = st.lam) ∨ ∃ v, Reached ar env st v ∧ x0 = v.x ∧ lam0 = v.lam) ∧
      (∀ i, |r.x i - x0 i| ≤ (1 + ε) ^ 2 * (env.cfg.epsPrim / (1 - ε)) + ((1 + ε) ^ 2 - 1) * |x0 i|) ∧
      ∀ i, |r.lam i - lam0 i| ≤ (1 + ε) ^ 2 * (env.cfg.epsDual / (1 - ε)) + ((1 + ε) ^ 2 - 1) * |lam0 i| := by
  obtain ⟨s, hv, hc⟩ := solve_reached h
  have hst := reached_status hv
  rcases hc with ⟨ht, hr⟩ | hr
  · have rx : r.x = s.x := by rw [hr]
    have rl : r.lam = s.lam := by rw [hr]
    obtain ⟨q, s2, hfrom, -, hq, e1, e2, e4, e5, e6⟩ := reached_step hv
    unfold terminated at ht
    simp only [Bool.and_eq_true, decide_eq_true_eq] at ht
    obtain ⟨⟨t1, t2⟩, t3⟩ := ht
    rw [e6] at t3
    rw [rx, rl]
    refine ⟨(maxViolation_bound hu t3).2, q.x, q.lam, ?_, ?_⟩
    · rcases hfrom with a | a
      · exact Or.inl a
      · exact Or.inr a
    obtain ⟨_, _, p, lamK, alpha, _, -, -, ha, hx, hl, hpn, hdn, -⟩ := qpStep_spec hq
    have hα : 0 ≤ alpha := by
      have := hstep (prec.unscale ‹_› ‹_›).h lamK q.x p q.cost
      rwa [← ha] at this
    have move : ∀ (d x t : ℝ), alpha * |d| ≤ t → |ar.mulAdd alpha d x - x| ≤ (1 + ε) ^ 2 * t + ((1 + ε) ^ 2 - 1) * |x| := by
      intro d x t hd
      have m := hu.mulAdd alpha d x
      have ea : |alpha * d| = alpha * |d| := by rw [abs_mul, abs_of_nonneg hα]
      have tri : |ar.mulAdd alpha d x - x| ≤ |ar.mulAdd alpha d x - (alpha * d + x)| + |alpha * d| := by
        have := abs_add_le (ar.mulAdd alpha d x - (alpha * d + x)) (alpha * d)
        rwa [show ar.mulAdd alpha d x - (alpha * d + x) + alpha * d = ar.mulAdd alpha d x - x by ring] at this
      rw [ea] at m tri
      have := mul_le_mul_of_nonneg_left hd (show 0 ≤ (1 + ε) ^ 2 by positivity)
      nlinarith
    have pick : ∀ {ι : Type} [Fintype ι] (v : ι → ℝ) (t : ℝ), ar.mul alpha (infNorm v) ≤ t → ∀ i, alpha * |v i| ≤ t / (1 - ε) := by
      intro ι _ v t hv i
      exact (mul_le_mul_of_nonneg_left (le_infNorm v i) hα).trans (mul_le_of hu hv hα (infNorm_nonneg _))
    rw [e4, hpn] at t1
    rw [e5, hdn] at t2
    constructor
    · intro i
      rw [e1, hx]
      exact move _ _ _ (pick p _ t1 i)
    · intro i
      rw [e2, hl]
      exact move _ _ _ (pick _ _ t2 i)
  · rw [hr, hst] at hs
    cases hs

/-- C211: the same for the functions the user had in mind, if the computed constraints differ from them by at most `κ` at the
returned point. -/
theorem solved_float_true [NeZero n] (hu : Accurate ar ε g) {env : Env ℝ n me mi prec qps} {st r : State ℝ n me mi prec qps}
    (hstep : ∀ h l x p c, 0 ≤ (env.stepSize h l x p c).1) (h : solve ar env st = some r) (hs : r.status = .SOLVED)
    {c : Fin me → ℝ} {q : Fin mi → ℝ} {κ : ℝ} (hκ : 0 ≤ κ) (hc : ∀ i, |env.prob.eq r.x i - c i| ≤ κ) (hq : ∀ i, |env.prob.ineq r.x i - q i| ≤ κ) :
    ViolatedByAtMost (env.cfg.epsPrim / (1 - ε) + κ) c q env.bd.lbg env.bd.ubg r.x env.bd.lbx env.bd.ubx := by
  obtain ⟨⟨h1, h2, h3⟩, -⟩ := solved_float hu hstep h hs
  refine ⟨fun i => ?_, fun i => ?_, fun i => ?_⟩
  · have a := abs_le.mp (hc i)
    have b := abs_le.mp (h1 i)
    exact abs_le.mpr ⟨by linarith [a.2, b.1], by linarith [a.1, b.2]⟩
  · have a := abs_le.mp (hq i)
    constructor <;> linarith [a.1, a.2, (h2 i).1, (h2 i).2]
  · constructor <;> linarith [(h3 i).1, (h3 i).2]

/-! ## C210: the bounds are not kept exactly

The cost is `(x - 2)² / 2`, the variable is between `-2 ^ (p + 2)` and `3 / 2`. From the guess `-2 ^ (p + 1)` the upper bound of
the step, `2 ^ (p + 1) + 3 / 2`, is rounded up to `2 ^ (p + 1) + 2`. The step to the minimiser 2 of the cost is then a feasible
and optimal step, and the line search accepts it. -/

/-- The QP solver: solves every QP with the identity as Hessian and without general constraints. -/
noncomputable def clampQPS : QPSolver ℝ 1 (0 + 0) where
  Mem := PUnit
  solve _ qp := (PUnit.unit, fun i => max (qp.xlb i) (min (-qp.h i) (qp.xub i)),
    Sum.elim (fun _ => 0) (fun i => -(qp.h i + max (qp.xlb i) (min (-qp.h i) (qp.xub i)))), 1)

/-- The QP solver is exact for these QPs. -/
theorem clampQPS_kkt (m : clampQPS.Mem) (qp : QP ℝ 1 (0 + 0)) (hH : qp.H = 1) (hb : ∀ i, qp.xlb i ≤ qp.xub i) :
    qp.KKT (clampQPS.solve m qp).2.1 (clampQPS.solve m qp).2.2.1 := by
  constructor
  · funext i
    have : ∀ v : Fin (0 + 0) → ℝ, (qp.Aᵀ *ᵥ v) i = 0 := fun v => by simp [mulVec, dotProduct]
    simp only [QP.lagrangianGradient, hH, one_mulVec, Pi.add_apply, this, QP.yBox, clampQPS, Sum.elim_inr, Pi.zero_apply]
    ring
  · intro i
    rcases i with i | i
    · exact i.elim0
    · simp only [QP.lower, QP.upper, QP.rows, Sum.elim_inr, clampQPS]
      refine ⟨⟨le_max_left _ _, max_le (hb i) (min_le_right _ _)⟩, fun h => ?_, fun h => ?_⟩
      · rcases le_total (qp.xlb i) (min (-qp.h i) (qp.xub i)) with e | e
        · rw [max_eq_right e] at h ⊢
          rcases le_total (-qp.h i) (qp.xub i) with e2 | e2
          · rw [min_eq_left e2] at h; linarith
          · rw [min_eq_right e2]
        · rw [max_eq_left e] at h ⊢
          rcases le_total (-qp.h i) (qp.xub i) with e2 | e2
          · rw [min_eq_left e2] at e; linarith
          · rw [min_eq_right e2] at e; exact le_antisymm (hb i) e
      · rcases le_total (qp.xlb i) (min (-qp.h i) (qp.xub i)) with e | e
        · rw [max_eq_right e] at h
          linarith [min_le_left (-qp.h i) (qp.xub i)]
        · exact max_eq_left e

/-- The problem. -/
noncomputable def wideEnv (p : ℕ) : Env ℝ 1 0 0 (identityPrecond ℝ 1 (0 + 0)) clampQPS where
  cfg := { Settings.default with maxIter := 1 }
  prob :=
    { cost := fun x => (x 0 - 2) ^ 2 / 2
      eq := fun _ => Fin.elim0
      ineq := fun _ => Fin.elim0
      costGrad := fun x _ => x 0 - 2
      constr := fun _ => Fin.elim0
      jac := fun _ i => i.elim0
      lagGrad := fun x l _ => x 0 - 2 + l (Sum.inr 0)
      lagHess := fun _ _ => 1 }
  bd := ⟨fun _ => -2 ^ (p + 2), fun _ => 3 / 2, Fin.elim0, Fin.elim0⟩
  hessUpdate := fun H _ _ => some H
  regularise := id
  stepSize := fun _ _ _ _ c => (1, c)

/-- The solver before the first iteration. -/
noncomputable def wideState (p : ℕ) : State ℝ 1 0 0 (identityPrecond ℝ 1 (0 + 0)) clampQPS where
  x := fun _ => -2 ^ (p + 1)
  lam := fun _ => 0
  lamK := fun _ => 0
  qp := ⟨0, 0, 0, 0, 0, 0, 0⟩
  cost := 0
  iter := 0
  qpIter := 0
  status := .MAX_ITER_EXCEEDED
  lagGradient := fun _ => 0
  stepPrev := fun _ => 0
  primalNorm := 0
  dualNorm := 0
  maxViolation := 0
  precMem := PUnit.unit
  qpMem := PUnit.unit
  callbacks := []

theorem wide_bound (p : ℕ) (hp : 2 ≤ p) : roundBits p (3 / 2 - -2 ^ (p + 1)) = 2 ^ (p + 1) + 2 ∧ roundBits p (2 ^ (p + 1) + 2) = 2 ^ (p + 1) + 2 := by
  have e1 : (2 : ℝ) ^ (((p + 1 : ℕ) : ℤ) - p) = 2 := by
    rw [show ((p + 1 : ℕ) : ℤ) - p = 1 by push_cast; ring]; norm_num
  have e2 : (2 : ℝ) ^ ((p + 1 : ℕ) : ℤ) = 2 ^ (p + 1) := zpow_natCast _ _
  have e3 : (2 : ℝ) ^ (((p + 1 : ℕ) : ℤ) + 1) = 2 * 2 ^ (p + 1) := by rw [zpow_add₀ (by norm_num), e2]; norm_num; ring
  have e4 : (8 : ℝ) ≤ 2 ^ (p + 1) := by
    calc (8 : ℝ) = 2 ^ 3 := by norm_num
      _ ≤ 2 ^ (p + 1) := pow_le_pow_right₀ (by norm_num) (by omega)
  have e5 : (((2 ^ p + 1 : ℤ)) : ℝ) * 2 = 2 ^ (p + 1) + 2 := by push_cast; ring
  constructor
  · have := roundBits_eq p (t := 3 / 2 - -2 ^ (p + 1)) (p + 1 : ℕ) (2 ^ p + 1) (by rw [e2, abs_of_pos (by linarith)]; linarith)
      (by rw [e3, abs_of_pos (by linarith)]; linarith)
      (by rw [e1, e5, abs_lt]; constructor <;> linarith)
    rw [this, e1, e5]
  · have := roundBits_eq p (t := 2 ^ (p + 1) + 2) (p + 1 : ℕ) (2 ^ p + 1) (by rw [e2, abs_of_pos (by linarith)]; linarith)
      (by rw [e3, abs_of_pos (by linarith)]; linarith)
      (by rw [e1, e5, abs_lt]; constructor <;> linarith)
    rw [this, e1, e5]

/-- The line search accepts the full step. -/
theorem wide_search (p : ℕ) (hp : 2 ≤ p) (eps : ℝ) (c : ℝ) :
    (lineSearch (Arith.plain (roundBits p) Real.sqrt) eps (wideEnv p).cfg (wideEnv p).prob (wideEnv p).bd (fun _ => -2 ^ (p + 1) - 2)
      (fun _ => 0) (fun _ => -2 ^ (p + 1)) (fun _ => 2 ^ (p + 1) + 2) c).1 = 1 := by
  set fl := roundBits p with hfl
  set P : ℝ := 2 ^ (p + 1) + 2 with hP
  have hP0 : 0 < P := by positivity
  have z : fl 0 = 0 := roundBits_zero p
  have f1 : fl P = P := (wide_bound p hp).2
  have f2 : fl 2 = 2 := by simpa using (roundBits_zpow p 1).1
  have f4 : fl (1 / 4) = 1 / 4 := by
    have := (roundBits_zpow p (-2)).1
    norm_num at this ⊢
    exact this
  have hmu : infNorm (fun _ : Fin (0 + 0) ⊕ Fin 1 => (0 : ℝ)) = 0 := by
    refine le_antisymm ?_ (infNorm_nonneg _)
    rw [infNorm_le_iff]; simp
  have hε : (1 : ℝ) / 2 ^ (p + 1) ≤ 1 / 8 := by
    have : (8 : ℝ) ≤ 2 ^ (p + 1) := by
      calc (8 : ℝ) = 2 ^ 3 := by norm_num
        _ ≤ 2 ^ (p + 1) := pow_le_pow_right₀ (by norm_num) (by omega)
    exact one_div_le_one_div_of_le (by norm_num) this
  have err : ∀ t, |fl t - t| ≤ 1 / 8 * |t| := fun t =>
    (roundBits_error p t).trans (mul_le_mul_of_nonneg_right hε (abs_nonneg _))
  rw [lineSearch]
  have hf : ((wideEnv p).cfg.lineSearchMaxIter - 1).toNat = 98 + 1 := rfl
  rw [hf, lineSearchLoop]
  have hx : (fun _ : Fin 1 => (Arith.plain fl Real.sqrt).add ((Arith.plain fl Real.sqrt).mul 1 P) (-2 ^ (p + 1))) = fun _ => 2 := by
    funext i
    show fl (fl (1 * P) + -2 ^ (p + 1)) = 2
    rw [one_mul, f1, show P + -2 ^ (p + 1) = 2 by rw [hP]; ring, f2]
  simp only [hmu, hx]
  rw [if_pos]
  have c1 : (wideEnv p).prob.cost (fun _ => 2) = 0 := by simp [wideEnv]
  have c2 : (wideEnv p).prob.cost (fun _ => -2 ^ (p + 1)) = P ^ 2 / 2 := by simp only [wideEnv, hP]; ring
  rw [c1, c2]
  have m0 : ∀ v w, (Arith.plain fl Real.sqrt).mulAdd 0 v w = fl w := fun v w => by
    show fl (fl (0 * v) + w) = fl w
    rw [zero_mul, z, zero_add]
  have d : (Arith.plain fl Real.sqrt).dot 1 (fun _ => -2 ^ (p + 1) - 2) (fun _ => P) = fl (fl (-P ^ 2)) := by
    show Fin.foldl 1 (fun s i => fl (s + fl ((-2 ^ (p + 1) - 2) * P))) 0 = _
    rw [Fin.foldl_succ, Fin.foldl_zero, zero_add]
    congr 2
    rw [hP]; ring
  rw [neg_zero, m0, m0, m0, d, z]
  show 0 ≤ fl (fl (fl (1 * (1 / 4)) * fl (fl (fl (-P ^ 2)))) + fl (P ^ 2 / 2))
  have id : ∀ t, fl (fl t) = fl t := roundBits_idem p
  rw [one_mul, f4, id, id, ← z]
  refine roundBits_mono p ?_
  have a1 := abs_le.mp (err (-P ^ 2))
  have a2 := abs_le.mp (err (P ^ 2 / 2))
  have a3 := abs_le.mp (err (1 / 4 * fl (-P ^ 2)))
  have hPP : 0 < P ^ 2 := by positivity
  rw [abs_neg, abs_of_pos hPP] at a1
  rw [abs_of_pos (by positivity)] at a2
  have hneg : fl (-P ^ 2) ≤ 0 := by linarith [a1.2]
  rw [abs_of_nonpos (by linarith)] at a3
  linarith [a1.1, a2.1, a3.1]

/-- C210: in arithmetic with `p` digits after the leading one, `p ≥ 2`, the returned point violates the upper bound `3 / 2`
although the guess satisfies the bounds, and the QP solver is exact (`clampQPS_kkt`). -/
theorem leaves_box (p : ℕ) (hp : 2 ≤ p) (eps : ℝ) :
    (∀ i, roundBits p ((wideState p).x i) = (wideState p).x i ∧ (wideEnv p).bd.lbx i ≤ (wideState p).x i ∧ (wideState p).x i ≤ (wideEnv p).bd.ubx i) ∧
    ∃ r, solve (Arith.plain (roundBits p) Real.sqrt) (searchEnv (Arith.plain (roundBits p) Real.sqrt) eps (wideEnv p)) (wideState p) = some r ∧
      r.x 0 = 2 ∧ r.x 0 = (wideEnv p).bd.ubx 0 + 1 / 2 := by
  have hpos : (0 : ℝ) < 2 ^ (p + 1) := by positivity
  constructor
  · intro i
    refine ⟨?_, ?_, ?_⟩
    · have := (roundBits_zpow p (p + 1 : ℕ)).2
      rw [zpow_natCast] at this
      exact this
    · show -2 ^ (p + 2) ≤ -(2 : ℝ) ^ (p + 1)
      rw [pow_succ _ (p + 1)]; linarith
    · show -(2 : ℝ) ^ (p + 1) ≤ 3 / 2
      linarith
  · set ar := Arith.plain (roundBits p) Real.sqrt with har
    set env := searchEnv ar eps (wideEnv p) with henv
    have hq : (linearise ar env (start (wideState p))).qp.xub = fun _ => 2 ^ (p + 1) + 2 := by
      funext i; exact (wide_bound p hp).1
    have hl : (linearise ar env (start (wideState p))).qp.xlb = fun _ => -2 ^ (p + 1) := by
      funext i
      show roundBits p (-2 ^ (p + 2) - -2 ^ (p + 1)) = _
      rw [show -(2 : ℝ) ^ (p + 2) - -2 ^ (p + 1) = -2 ^ (p + 1) by rw [pow_succ _ (p + 1)]; ring]
      have := (roundBits_zpow p (p + 1 : ℕ)).2
      rwa [zpow_natCast] at this
    have hh : (linearise ar env (start (wideState p))).qp.h = fun _ => -2 ^ (p + 1) - 2 := rfl
    have hs : (clampQPS.solve PUnit.unit (linearise ar env (start (wideState p))).qp).2.1 = (fun _ => 2 ^ (p + 1) + 2) ∧
        (clampQPS.solve PUnit.unit (linearise ar env (start (wideState p))).qp).2.2.1 = fun _ => 0 := by
      have e : max (-(2 : ℝ) ^ (p + 1)) (min (-(-2 ^ (p + 1) - 2)) (2 ^ (p + 1) + 2)) = 2 ^ (p + 1) + 2 := by
        rw [min_eq_right (by linarith), max_eq_right (by linarith)]
      have gen : ∀ qp : QP ℝ 1 (0 + 0), qp.xub = (fun _ => 2 ^ (p + 1) + 2) → qp.xlb = (fun _ => -2 ^ (p + 1)) → qp.h = (fun _ => -2 ^ (p + 1) - 2) →
          (clampQPS.solve PUnit.unit qp).2.1 = (fun _ => 2 ^ (p + 1) + 2) ∧ (clampQPS.solve PUnit.unit qp).2.2.1 = fun _ => 0 := by
        intro qp hq hl hh
        constructor
        · funext i
          simp only [clampQPS, hq, hl, hh]
          exact e
        · funext i
          rcases i with i | i
          · rfl
          · simp only [clampQPS, hq, hl, hh, Sum.elim_inr]
            rw [e]; ring
      exact gen _ hq hl hh
    obtain ⟨s1, h1⟩ : ∃ s1, qpStep ar env (linearise ar env (start (wideState p))) = some s1 := ⟨_, rfl⟩
    obtain ⟨mem, scaled, pp, lamK, alpha, logged, k1, k2, k3, kx, -, kn, -⟩ := qpStep_spec h1
    obtain rfl : (linearise ar env (start (wideState p))).qp = scaled := congrArg Prod.snd (Option.some.inj k1)
    have ep : pp = fun _ => 2 ^ (p + 1) + 2 := by
      have := congrArg Prod.fst k2
      exact this.trans hs.1
    have el : lamK = fun _ => 0 := by
      have := congrArg Prod.snd k2
      exact this.trans hs.2
    have ea : alpha = 1 := by
      have := congrArg Prod.fst k3
      rw [ep, el] at this
      exact this.trans (wide_search p hp eps (linearise ar env (start (wideState p))).cost)
    have hx : s1.x 0 = 2 := by
      rw [kx, ep, ea]
      show roundBits p (roundBits p (1 * (2 ^ (p + 1) + 2)) + -2 ^ (p + 1)) = 2
      rw [one_mul, (wide_bound p hp).2, show (2 : ℝ) ^ (p + 1) + 2 + -2 ^ (p + 1) = 2 by ring]
      simpa using (roundBits_zpow p 1).1
    have hn : s1.primalNorm = 2 ^ (p + 1) + 2 := by
      have : infNorm (fun _ : Fin 1 => (2 : ℝ) ^ (p + 1) + 2) = 2 ^ (p + 1) + 2 := by
        refine le_antisymm ?_ ((le_abs_self _).trans (le_infNorm (fun _ : Fin 1 => (2 : ℝ) ^ (p + 1) + 2) 0))
        rw [infNorm_le_iff]
        exact ⟨by linarith, fun _ => by rw [abs_of_pos (by linarith)]⟩
      rw [kn, ep, ea, this]
      show roundBits p (1 * (2 ^ (p + 1) + 2)) = _
      rw [one_mul, (wide_bound p hp).2]
    have ht : terminated env (measure ar env s1) = false := by
      unfold terminated
      have : decide ((measure ar env s1).primalNorm ≤ env.cfg.epsPrim) = false := by
        rw [decide_eq_false_iff_not, not_le]
        show (1 / 1000 : ℝ) < s1.primalNorm
        rw [hn]; linarith
      rw [this]; rfl
    refine ⟨measure ar env s1, ?_, hx, ?_⟩
    · unfold solve
      change ((qpStep ar env (linearise ar env (start (wideState p)))).bind _) = _
      rw [h1]
      simp only [Option.bind_some, ht]
      rfl
    · show s1.x 0 = 3 / 2 + 1 / 2
      rw [hx]; norm_num

/-- The theorems apply to double precision, with and without contraction, and to this QP solver. -/
example : (∃ F, Ordered (Arith.plain (roundBits 52) Real.sqrt) F) ∧ (∃ g, Accurate (Arith.plain (roundBits 52) Real.sqrt) (1 / 2 ^ 53) g) ∧
    ((1 : ℝ) / 2 ^ 53 ≤ 1 / 100) ∧
    ∀ m qp, (∀ i, qp.xlb i ≤ qp.xub i) → ∀ i, qp.xlb i ≤ (clampQPS.solve m qp).2.1 i ∧ (clampQPS.solve m qp).2.1 i ≤ qp.xub i :=
  ⟨⟨_, (ordered_roundBits 52 Real.sqrt).1⟩, ⟨_, (accurate_roundBits 52 Real.sqrt).1⟩, by norm_num,
    fun _ qp hc i => ⟨le_max_left _ _, max_le (hc i) (min_le_right _ _)⟩⟩

end PolyMPC.SqpR
