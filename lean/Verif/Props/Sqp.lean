import Verif.Lemmas.Sqp
import Verif.Props.Ruiz
import Mathlib.Data.Fin.VecNotation
import Mathlib.Data.Rat.Defs

/-!
# Properties C23 to C28 (SQP: control flow, termination, line search, violations, bounds, subproblem)
-/

set_option linter.unusedSectionVars false

namespace PolyMPC.Sqp
open Matrix PolyMPC.Spec

universe u

variable {K : Type u} [Field K] [LinearOrder K] [IsStrictOrderedRing K] {n me mi : ℕ}
variable {prec : Precond K n (me + mi)} {qps : QPSolver K n (me + mi)}

/-! ## A small problem used in the examples

`minimise ½(x - 5)²` subject to `x - x₀ = 0`, `-10 ≤ x ≤ 10`, with a QP solver which solves one-dimensional equality
constrained QPs exactly. -/

/-- The problem of the examples. -/
def demoProblem (x0 : ℚ) : Problem ℚ 1 1 0 where
  cost x := (x 0 - 5) ^ 2 / 2
  eq x := fun _ => x 0 - x0
  ineq _ := Fin.elim0
  costGrad x := fun _ => x 0 - 5
  constr x := fun _ => x 0 - x0
  jac _ := Matrix.of fun _ _ => 1
  lagGrad x l := fun _ => x 0 - 5 + l (Sum.inl 0) + l (Sum.inr 0)
  lagHess _ _ := Matrix.of fun _ _ => 1

/-- The bounds of the examples. -/
def demoBounds : Bounds ℚ 1 0 := { lbx := fun _ => -10, ubx := fun _ => 10, lbg := Fin.elim0, ubg := Fin.elim0 }

/-- The QP solver of the examples. -/
def demoQPS : QPSolver ℚ 1 (1 + 0) where
  Mem := PUnit
  solve _ qp :=
    let p := qp.Alb 0 / qp.A 0 0
    (PUnit.unit, fun _ => p, Sum.elim (fun _ => -(qp.H 0 0 * p + qp.h 0) / qp.A 0 0) (fun _ => 0), 1)

/-- The solver of the examples. -/
def demoEnv (cfg : Settings ℚ) (x0 : ℚ) : Env ℚ 1 1 0 (identityPrecond ℚ 1 (1 + 0)) demoQPS :=
  defaultEnv (1 / 10 ^ 15) cfg (demoProblem x0) demoBounds

/-- The state of the examples. -/
def demoState (x lam : ℚ) : State ℚ 1 1 0 (identityPrecond ℚ 1 (1 + 0)) demoQPS where
  x := fun _ => x
  lam := Sum.elim (fun _ => lam) (fun _ => 0)
  lamK := fun _ => 0
  qp := ⟨0, 0, 0, 0, 0, 0, 0⟩
  cost := 0
  iter := 0
  qpIter := 0
  status := .INVALID_SETTINGS
  lagGradient := 0
  stepPrev := 0
  primalNorm := 0
  dualNorm := 0
  maxViolation := 0
  precMem := PUnit.unit
  qpMem := PUnit.unit
  callbacks := []

/-! ## C23 -/

/-- C23: `solve` performs at least one and at most `max(1, max_iter)` iterations; it reports `SOLVED` if the step norms and
the largest violation at the end of the last iteration are within the tolerances and `MAX_ITER_EXCEEDED` otherwise, in which
case it has used all iterations; the callback has been called once per iteration after the first. -/
theorem solve_control_flow [NeZero n] {env : Env K n me mi prec qps} {st r : State K n me mi prec qps}
    (h : solve env st = some r) :
    1 ≤ r.iter ∧ r.iter ≤ max 1 env.cfg.maxIter ∧
    (r.status = .SOLVED ↔ r.primalNorm ≤ env.cfg.epsPrim ∧ r.dualNorm ≤ env.cfg.epsDual ∧
      maxConstraintsViolation env.prob env.bd r.x ≤ env.cfg.epsPrim) ∧
    (r.status ≠ .SOLVED → r.status = .MAX_ITER_EXCEEDED ∧ r.iter = max 1 env.cfg.maxIter) ∧
    ∃ l, r.callbacks = st.callbacks ++ l ∧ (l.length : ℤ) = if env.cfg.callback then r.iter - 1 else 0 := by
  obtain ⟨s, hv, hc⟩ := solve_cases h
  obtain ⟨h1, h2, h3, h4, h5⟩ := visited_facts hv
  have ht : terminated env s = true ↔ s.primalNorm ≤ env.cfg.epsPrim ∧ s.dualNorm ≤ env.cfg.epsDual ∧
      maxConstraintsViolation env.prob env.bd s.x ≤ env.cfg.epsPrim := by
    simp only [terminated, Bool.and_eq_true, decide_eq_true_eq, h5, and_assoc]
  rcases hc with ⟨c1, rfl⟩ | ⟨c1, c2, rfl⟩
  · exact ⟨h1, h2, ⟨fun _ => ht.mp c1, fun _ => rfl⟩, fun hn => absurd rfl hn, h4⟩
  · refine ⟨h1, h2, ⟨fun hs => ?_, fun hs => ?_⟩, fun _ => ⟨h3, le_antisymm h2 (max_le h1 c2)⟩, h4⟩
    · rw [h3] at hs; cases hs
    · rw [ht.mpr hs] at c1; cases c1

/-- C23: with the default Hessian update and a preconditioner that always succeeds, `solve` has a result if the Hessian
update has one. -/
theorem solve_total [NeZero n] {env : Env K n me mi prec qps} (st : State K n me mi prec qps)
    (hp : ∀ m qp, ∃ r, prec.compute m qp = some r) (hu : ∀ H s y, ∃ r, env.hessUpdate H s y = some r) :
    ∃ r, solve env st = some r := by
  have hq : ∀ st, ∃ s, qpStep env st = some s := by
    intro st
    obtain ⟨r, hr⟩ := hp st.precMem st.qp
    exact ⟨_, by rw [qpStep, hr]; rfl⟩
  have hpass : ∀ st, ∃ s, pass env st = some s := by
    intro st
    obtain ⟨H, hH⟩ := hu st.qp.H st.stepPrev (env.prob.lagGrad st.x st.lam - st.lagGradient)
    have : ∃ s1, updateLinearisation env { st with iter := st.iter + 1 } = some s1 := by
      unfold updateLinearisation
      simp only [hH, Option.map_some]
      exact ⟨_, rfl⟩
    obtain ⟨s1, hs1⟩ := this
    obtain ⟨s2, hs2⟩ := hq s1
    exact ⟨_, by rw [pass, hs1, Option.bind_some, hs2]; rfl⟩
  have hloop : ∀ fuel st, ∃ r, loop env fuel st = some r := by
    intro fuel
    induction fuel with
    | zero => exact fun st => ⟨st, rfl⟩
    | succ k ih =>
      intro st
      rw [loop_succ]
      split_ifs with hlt
      · obtain ⟨s, hs⟩ := hpass st
        rw [hs, Option.bind_some]
        split_ifs
        · exact ⟨_, rfl⟩
        · exact ih s
      · exact ⟨st, rfl⟩
  rw [solve_eq]
  obtain ⟨s, hs⟩ := hq (linearise env (start st))
  have hf : firstPass env st = some (measure env s) := by rw [firstPass, hs]; rfl
  rw [hf, Option.bind_some]
  split_ifs
  · exact ⟨_, rfl⟩
  · exact hloop _ _

/-- C23: the number of passes is not cut off by the model: any larger bound on them gives the same result. -/
theorem solve_fuel [NeZero n] (env : Env K n me mi prec qps) (st : State K n me mi prec qps) (fuel : ℕ)
    (h : (env.cfg.maxIter - 1).toNat ≤ fuel) :
    solve env st = (firstPass env st).bind fun s =>
      if terminated env s then some { s with status := .SOLVED } else loop env fuel s := by
  rw [solve_eq]
  cases hf : firstPass env st with
  | none => rfl
  | some s =>
    have hi := (firstPass_spec hf).1
    simp only [Option.bind_some]
    split_ifs
    · rfl
    · rw [loop_fuel env fuel s (by rw [hi]; exact h), hi]

/-- The example needs two iterations from `x = 3`, `λ = 0` and calls the callback once; with `max_iter = 0` one iteration is
still performed. -/
example :
    ((solve (demoEnv { (Settings.default : Settings ℚ) with callback := true } 0) (demoState 3 0)).map fun r =>
      ([r.iter, r.callbacks.length], decide (r.status = .SOLVED))) = some ([2, 1], true) ∧
    ((solve (demoEnv { (Settings.default : Settings ℚ) with maxIter := 0 } 0) (demoState 3 0)).map fun r =>
      ([r.iter, r.callbacks.length], decide (r.status = .MAX_ITER_EXCEEDED))) = some ([1, 0], true) := by
  decide +kernel

/-! ## C26 -/

theorem maxCoeff_le_iff {k : ℕ} [NeZero k] (v : Fin k → K) (r : K) : maxCoeff v ≤ r ↔ ∀ i, v i ≤ r := by
  unfold maxCoeff
  rw [Finset.sup'_le_iff]
  simp

/-- C26: the largest violation is at most `tol` iff every constraint is violated by at most `tol`. -/
theorem maxViolation_le_iff [NeZero n] (prob : Problem K n me mi) (bd : Bounds K n mi) (x : Fin n → K) {tol : K} :
    maxConstraintsViolation prob bd x ≤ tol ↔ 0 ≤ tol ∧
      ViolatedByAtMost tol (prob.eq x) (prob.ineq x) bd.lbg bd.ubg x bd.lbx bd.ubx := by
  unfold maxConstraintsViolation ViolatedByAtMost
  simp only [max_le_iff, maxCoeff_le_iff]
  have hc0 : (if 0 < me then infNorm (prob.eq x) else 0) ≤ tol ↔ 0 ≤ tol ∧ ∀ i, |prob.eq x i| ≤ tol := by
    split_ifs with h
    · exact infNorm_le_iff _
    · have hme : me = 0 := by omega
      subst hme
      exact ⟨fun h => ⟨h, fun i => i.elim0⟩, fun h => h.1⟩
  have hg : (∀ i, bd.lbg i - tol ≤ prob.ineq x i ∧ prob.ineq x i ≤ bd.ubg i + tol) ↔
      (∀ i, bd.lbg i - prob.ineq x i ≤ tol) ∧ ∀ i, prob.ineq x i - bd.ubg i ≤ tol := by
    rw [← forall_and]
    exact forall_congr' fun i => by constructor <;> rintro ⟨a, b⟩ <;> constructor <;> linarith
  have hx : (∀ i, bd.lbx i - tol ≤ x i ∧ x i ≤ bd.ubx i + tol) ↔
      (∀ i, bd.lbx i - x i ≤ tol) ∧ ∀ i, x i - bd.ubx i ≤ tol := by
    rw [← forall_and]
    exact forall_congr' fun i => by constructor <;> rintro ⟨a, b⟩ <;> constructor <;> linarith
  rw [hg, hx]
  by_cases h : 0 < mi
  · have : NeZero mi := ⟨h.ne'⟩
    rw [dif_pos h]
    simp only [max_le_iff, maxCoeff_le_iff, hc0]
    tauto
  · have hmi : mi = 0 := by omega
    subst hmi
    rw [dif_neg h, hc0]
    simp only [IsEmpty.forall_iff, true_and]
    tauto

theorem constraintsViolation_eq (eps : K) (prob : Problem K n me mi) (bd : Bounds K n mi) (x : Fin n → K) :
    constraintsViolation eps prob bd x =
      eps + l1Violation (prob.eq x) (prob.ineq x) bd.lbg bd.ubg x bd.lbx bd.ubx := by
  simp only [constraintsViolation, l1Violation, outside, oneNorm, Finset.sum_add_distrib]
  ring

theorem outside_nonneg (lo up z : K) : 0 ≤ outside lo up z :=
  add_nonneg (le_max_right _ _) (le_max_right _ _)

theorem outside_eq_zero_iff (lo up z : K) : outside lo up z = 0 ↔ lo ≤ z ∧ z ≤ up := by
  unfold outside
  rw [add_eq_zero_iff_of_nonneg (le_max_right _ _) (le_max_right _ _), max_eq_right_iff, max_eq_right_iff,
    sub_nonpos, sub_nonpos]

theorem l1Violation_nonneg (c : Fin me → K) (g lbg ubg : Fin mi → K) (x lbx ubx : Fin n → K) :
    0 ≤ l1Violation c g lbg ubg x lbx ubx :=
  add_nonneg (add_nonneg (Finset.sum_nonneg fun _ _ => abs_nonneg _) (Finset.sum_nonneg fun _ _ => outside_nonneg _ _ _))
    (Finset.sum_nonneg fun _ _ => outside_nonneg _ _ _)

theorem l1Violation_eq_zero_iff (c : Fin me → K) (g lbg ubg : Fin mi → K) (x lbx ubx : Fin n → K) :
    l1Violation c g lbg ubg x lbx ubx = 0 ↔ NlpFeasible c g lbg ubg x lbx ubx := by
  unfold l1Violation NlpFeasible
  have h1 : 0 ≤ ∑ i, |c i| := Finset.sum_nonneg fun _ _ => abs_nonneg _
  have h2 : 0 ≤ ∑ i, outside (lbg i) (ubg i) (g i) := Finset.sum_nonneg fun _ _ => outside_nonneg _ _ _
  have h3 : 0 ≤ ∑ i, outside (lbx i) (ubx i) (x i) := Finset.sum_nonneg fun _ _ => outside_nonneg _ _ _
  rw [add_eq_zero_iff_of_nonneg (add_nonneg h1 h2) h3, add_eq_zero_iff_of_nonneg h1 h2,
    Finset.sum_eq_zero_iff_of_nonneg (fun _ _ => abs_nonneg _),
    Finset.sum_eq_zero_iff_of_nonneg (fun _ _ => outside_nonneg _ _ _),
    Finset.sum_eq_zero_iff_of_nonneg (fun _ _ => outside_nonneg _ _ _)]
  simp only [Finset.mem_univ, true_implies, abs_eq_zero, outside_eq_zero_iff, and_assoc]

/-- C26: the violation used by the line search is the sum of all violations plus the machine epsilon; it equals the machine
epsilon exactly at feasible points and is larger everywhere else. -/
theorem violation_spec (eps : K) (prob : Problem K n me mi) (bd : Bounds K n mi) (x : Fin n → K) :
    constraintsViolation eps prob bd x =
      eps + l1Violation (prob.eq x) (prob.ineq x) bd.lbg bd.ubg x bd.lbx bd.ubx ∧
    (constraintsViolation eps prob bd x = eps ↔
      NlpFeasible (prob.eq x) (prob.ineq x) bd.lbg bd.ubg x bd.lbx bd.ubx) ∧
    (¬ NlpFeasible (prob.eq x) (prob.ineq x) bd.lbg bd.ubg x bd.lbx bd.ubx → eps < constraintsViolation eps prob bd x) := by
  have h := constraintsViolation_eq eps prob bd x
  have hn := l1Violation_nonneg (prob.eq x) (prob.ineq x) bd.lbg bd.ubg x bd.lbx bd.ubx
  have hz := l1Violation_eq_zero_iff (prob.eq x) (prob.ineq x) bd.lbg bd.ubg x bd.lbx bd.ubx
  refine ⟨h, ?_, fun hf => ?_⟩
  · rw [h, ← hz]
    exact add_eq_left
  · rw [h]
    have : l1Violation (prob.eq x) (prob.ineq x) bd.lbg bd.ubg x bd.lbx bd.ubx ≠ 0 := fun h0 => hf (hz.mp h0)
    linarith [lt_of_le_of_ne hn (Ne.symm this)]

/-- A problem with two inequalities: at `x = (3, -2)` the sum of the violations is `1 + 2 + 1` and the largest is `2`. -/
def demoIneq : Problem ℚ 2 1 2 where
  cost x := x 0
  eq x := fun _ => x 0 + x 1
  ineq x := ![x 0 * x 1, x 0 - x 1]
  costGrad _ := ![1, 0]
  constr x := ![x 0 + x 1, x 0 * x 1, x 0 - x 1]
  jac x := !![1, 1; x 1, x 0; 1, -1]
  lagGrad x l := ![1 + l (Sum.inl 0) + x 1 * l (Sum.inl 1) + l (Sum.inl 2) + l (Sum.inr 0),
    l (Sum.inl 0) + x 0 * l (Sum.inl 1) - l (Sum.inl 2) + l (Sum.inr 1)]
  lagHess _ l := !![0, l (Sum.inl 1); l (Sum.inl 1), 0]

/-- The bounds of this problem. -/
def demoIneqBounds : Bounds ℚ 2 2 := { lbx := ![0, -1], ubx := ![5, 5], lbg := ![-4, 0], ubg := ![0, 6] }

example : constraintsViolation (1 / 10 ^ 15) demoIneq demoIneqBounds ![3, -2] = 1 / 10 ^ 15 + 4 ∧
    maxConstraintsViolation demoIneq demoIneqBounds ![3, -2] = 2 ∧
    constraintsViolation (1 / 10 ^ 15) demoIneq demoIneqBounds ![1, -1] = 1 / 10 ^ 15 := by decide +kernel

/-! ## C24 -/

/-- C24: if `solve` reports `SOLVED` then the last iteration changed every variable by at most `eps_prim` and every
multiplier by at most `eps_dual`, and the returned point violates every constraint by at most `eps_prim`. The step sizes are
assumed not to be negative. -/
theorem solved_spec [NeZero n] {env : Env K n me mi prec qps} {st r : State K n me mi prec qps}
    (hstep : ∀ h l x p c, 0 ≤ (env.stepSize h l x p c).1) (h : solve env st = some r) (hs : r.status = .SOLVED) :
    (∃ x0 lam0, From env st r x0 lam0 ∧ (∀ i, |r.x i - x0 i| ≤ env.cfg.epsPrim) ∧
      ∀ i, |r.lam i - lam0 i| ≤ env.cfg.epsDual) ∧
    ViolatedByAtMost env.cfg.epsPrim (env.prob.eq r.x) (env.prob.ineq r.x) env.bd.lbg env.bd.ubg r.x env.bd.lbx
      env.bd.ubx := by
  obtain ⟨n1, n2, n3⟩ := (solve_control_flow h).2.2.1.mp hs
  refine ⟨?_, ((maxViolation_le_iff _ _ _).mp n3).2⟩
  obtain ⟨s, hv, hc⟩ := solve_cases h
  have hrs : r.x = s.x ∧ r.lam = s.lam ∧ r.primalNorm = s.primalNorm ∧ r.dualNorm = s.dualNorm ∧ r.iter = s.iter := by
    rcases hc with ⟨-, rfl⟩ | ⟨-, -, rfl⟩
    · exact ⟨rfl, rfl, rfl, rfl, rfl⟩
    · exact ⟨rfl, rfl, rfl, rfl, rfl⟩
  obtain ⟨r1, r2, r3, r4, r5⟩ := hrs
  obtain ⟨q, s2, hfrom, -, hq, e1, e2, -, e4, e5, -⟩ := visited_step hv
  obtain ⟨_, _, p, lamK, alpha, _, -, -, -, ha, -, -, hx, hl, -, hpn, hdn, -⟩ := qpStep_spec hq
  have hα : 0 ≤ alpha := by
    have := hstep s2.qp.h lamK q.x p q.cost
    rwa [← ha] at this
  refine ⟨q.x, q.lam, ?_, fun i => ?_, fun i => ?_⟩
  · unfold From at hfrom ⊢
    rwa [r5]
  · rw [r1, e1, hx]
    simp only [add_sub_cancel_left, abs_mul, abs_of_nonneg hα]
    refine le_trans (mul_le_mul_of_nonneg_left (le_infNorm p i) hα) ?_
    rw [← hpn, ← e4, ← r3]
    exact n1
  · rw [r2, e2, hl]
    simp only [add_sub_cancel_left, abs_mul, abs_of_nonneg hα]
    refine le_trans (mul_le_mul_of_nonneg_left (le_infNorm (lamK - q.lam) i) hα) ?_
    rw [← hdn, ← e5, ← r4]
    exact n2

/-- The run of the example ends with `SOLVED` at `x = 0` with violation `0`. -/
example : ((solve (demoEnv Settings.default 0) (demoState 3 0)).map fun r => (decide (r.status = .SOLVED), r.x 0)) =
    some (true, 0) := by decide +kernel

/-! ## C25 -/

/-- Sufficient decrease of `phi` along `p` by the step `a` for the predicted slope `slope`. -/
def Armijo (eta slope : K) (phi : (Fin n → K) → K) (x p : Fin n → K) (a : K) : Prop :=
  phi (fun i => x i + a * p i) ≤ phi x + a * eta * slope

/-- The merit function of the line search: cost plus `mu` times the sum of the violations plus the machine epsilon. -/
def merit (eps mu : K) (prob : Problem K n me mi) (bd : Bounds K n mi) (x : Fin n → K) : K :=
  prob.cost x + mu * (eps + l1Violation (prob.eq x) (prob.ineq x) bd.lbg bd.ubg x bd.lbx bd.ubx)

theorem lineSearchLoop_spec (tau eta slope mu : K) (cost viol : (Fin n → K) → K) (x p : Fin n → K) (fuel : ℕ)
    (alpha logged : K) :
    ∃ k ≤ fuel, (lineSearchLoop tau eta (cost x + mu * viol x) slope mu cost viol x p fuel alpha logged).1 =
        tau ^ k * alpha ∧
      (k < fuel → Armijo eta slope (fun z => cost z + mu * viol z) x p (tau ^ k * alpha)) ∧
      (∀ j < k, ¬ Armijo eta slope (fun z => cost z + mu * viol z) x p (tau ^ j * alpha)) := by
  induction fuel generalizing alpha logged with
  | zero => exact ⟨0, le_rfl, by simp [lineSearchLoop], fun h => absurd h (lt_irrefl _), fun j hj => absurd hj (by omega)⟩
  | succ fuel ih =>
    have hcomm : (fun i => alpha * p i + x i) = fun i => x i + alpha * p i := by funext i; ring
    rw [lineSearchLoop]
    simp only [hcomm]
    split_ifs with h
    · refine ⟨0, by omega, by simp, fun _ => ?_, fun j hj => absurd hj (by omega)⟩
      simp only [Armijo, pow_zero, one_mul]
      exact h
    · obtain ⟨k, hk, e1, e2, e3⟩ := ih (tau * alpha) (cost fun i => x i + alpha * p i)
      have hp : ∀ j, tau ^ j * (tau * alpha) = tau ^ (j + 1) * alpha := fun j => by ring
      refine ⟨k + 1, by omega, by rw [e1, hp], fun hlt => ?_, fun j hj => ?_⟩
      · rw [← hp]; exact e2 (by omega)
      · cases j with
        | zero => simpa only [Armijo, pow_zero, one_mul] using h
        | succ j => rw [← hp]; exact e3 j (by omega)

/-- C25: the step size is `tau ^ k` with `k < max(1, line_search_max_iter)`; the sufficient decrease condition for the
`l1` merit function with the largest multiplier as penalty holds for it unless all trials have failed, and it fails for
every earlier trial. -/
theorem lineSearch_spec (eps : K) (cfg : Settings K) (prob : Problem K n me mi) (bd : Bounds K n mi) (h : Fin n → K)
    (lamK : Dual K n me mi) (x p : Fin n → K) (logged : K) :
    ∃ k : ℕ, (k : ℤ) < max 1 cfg.lineSearchMaxIter ∧ (lineSearch eps cfg prob bd h lamK x p logged).1 = cfg.tau ^ k ∧
      ((k : ℤ) < cfg.lineSearchMaxIter - 1 →
        Armijo cfg.eta (h ⬝ᵥ p - infNorm lamK *
            (eps + l1Violation (prob.eq x) (prob.ineq x) bd.lbg bd.ubg x bd.lbx bd.ubx))
          (merit eps (infNorm lamK) prob bd) x p (cfg.tau ^ k)) ∧
      ∀ j < k, ¬ Armijo cfg.eta (h ⬝ᵥ p - infNorm lamK *
            (eps + l1Violation (prob.eq x) (prob.ineq x) bd.lbg bd.ubg x bd.lbx bd.ubx))
          (merit eps (infNorm lamK) prob bd) x p (cfg.tau ^ j) := by
  have hm : (fun z => prob.cost z + infNorm lamK * constraintsViolation eps prob bd z) =
      merit eps (infNorm lamK) prob bd := by
    funext z; rw [merit, constraintsViolation_eq]
  obtain ⟨k, hk, e1, e2, e3⟩ := lineSearchLoop_spec cfg.tau cfg.eta
    (h ⬝ᵥ p - infNorm lamK * constraintsViolation eps prob bd x) (infNorm lamK) prob.cost
    (constraintsViolation eps prob bd) x p (cfg.lineSearchMaxIter - 1).toNat 1 logged
  rw [constraintsViolation_eq, hm] at e2 e3
  simp only [mul_one] at e1 e2 e3
  refine ⟨k, ?_, e1, fun hlt => e2 (by omega), e3⟩
  rcases le_total cfg.lineSearchMaxIter 1 with hle | hle
  · have : k = 0 := by omega
    rw [this]
    exact lt_max_of_lt_left (by norm_num)
  · exact lt_max_of_lt_right (by omega)

/-- C25: with `0 < tau ≤ 1` the step size is positive and at most one. -/
theorem lineSearch_range {eps : K} {cfg : Settings K} (h0 : 0 < cfg.tau) (h1 : cfg.tau ≤ 1) (prob : Problem K n me mi)
    (bd : Bounds K n mi) (h : Fin n → K) (lamK : Dual K n me mi) (x p : Fin n → K) (logged : K) :
    0 < (lineSearch eps cfg prob bd h lamK x p logged).1 ∧ (lineSearch eps cfg prob bd h lamK x p logged).1 ≤ 1 := by
  obtain ⟨k, -, hk, -⟩ := lineSearch_spec eps cfg prob bd h lamK x p logged
  rw [hk]
  exact ⟨pow_pos h0 k, pow_le_one₀ h0.le h1⟩

/-- For the cost `x⁴` at `x = 1` in direction `-3` the steps `1` and `1/2` are rejected and `1/4` is accepted; with one
trial only the step `1/2` is returned although it has not been tested. -/
def demoQuartic : Problem ℚ 1 0 0 where
  cost x := x 0 ^ 4
  eq _ := Fin.elim0
  ineq _ := Fin.elim0
  costGrad x := fun _ => 4 * x 0 ^ 3
  constr _ := Fin.elim0
  jac _ := fun i => i.elim0
  lagGrad x l := fun _ => 4 * x 0 ^ 3 + l (Sum.inr 0)
  lagHess x _ := Matrix.of fun _ _ => 12 * x 0 ^ 2

example : (lineSearch (1 / 10 ^ 15) (Settings.default : Settings ℚ) demoQuartic
      ⟨fun _ => -10, fun _ => 10, Fin.elim0, Fin.elim0⟩ (fun _ => 4) (fun _ => 0) (fun _ => 1) (fun _ => -3) 7) =
        (1 / 4, 1 / 256) ∧
    (lineSearch (1 / 10 ^ 15) { (Settings.default : Settings ℚ) with lineSearchMaxIter := 2 } demoQuartic
      ⟨fun _ => -10, fun _ => 10, Fin.elim0, Fin.elim0⟩ (fun _ => 4) (fun _ => 0) (fun _ => 1) (fun _ => -3) 7) =
        (1 / 2, 16) ∧
    (lineSearch (1 / 10 ^ 15) { (Settings.default : Settings ℚ) with lineSearchMaxIter := 0 } demoQuartic
      ⟨fun _ => -10, fun _ => 10, Fin.elim0, Fin.elim0⟩ (fun _ => 4) (fun _ => 0) (fun _ => 1) (fun _ => -3) 7) =
        (1, 7) := by decide +kernel

/-! ## C28 -/

/-- Rows of the equality constraints in the constraint vector or Jacobian. -/
abbrev eqRows (A : Matrix (Fin (me + mi)) (Fin n) K) : Matrix (Fin me) (Fin n) K := A.submatrix (Fin.castAdd mi) id

/-- Rows of the inequality constraints in the constraint Jacobian. -/
abbrev ineqRows (A : Matrix (Fin (me + mi)) (Fin n) K) : Matrix (Fin mi) (Fin n) K := A.submatrix (Fin.natAdd me) id

/-- C28: a step satisfies the constraints of the QP iff the linearised constraints and the bounds hold after it: with
`b = (c, g)` the constraint values at `x` and `A = (JE, JI)` their Jacobian, iff `c + JE p = 0`, `lbg ≤ g + JI p ≤ ubg` and
`lbx ≤ x + p ≤ ubx`. -/
theorem formQP_feasible_iff (bd : Bounds K n mi) (x : Fin n → K) (H : Matrix (Fin n) (Fin n) K) (h : Fin n → K)
    (A : Matrix (Fin (me + mi)) (Fin n) K) (b : Fin (me + mi) → K) (p : Fin n → K) :
    (formQP bd x H h A b).Feasible p ↔
      NlpFeasible ((fun i => b (Fin.castAdd mi i)) + eqRows A *ᵥ p) ((fun i => b (Fin.natAdd me i)) + ineqRows A *ᵥ p)
        bd.lbg bd.ubg (x + p) bd.lbx bd.ubx := by
  have hE : ∀ i, (A *ᵥ p) (Fin.castAdd mi i) = (eqRows A *ᵥ p) i := fun i => rfl
  have hI : ∀ i, (A *ᵥ p) (Fin.natAdd me i) = (ineqRows A *ᵥ p) i := fun i => rfl
  unfold QP.Feasible NlpFeasible formQP
  simp only [Fin.forall_fin_add, Fin.addCases_left, Fin.addCases_right, hE, hI, Pi.add_apply, and_assoc]
  refine and_congr (forall_congr' fun i => ?_) (and_congr (forall_congr' fun i => ?_) (forall_congr' fun i => ?_))
  · constructor
    · rintro ⟨a, b⟩; linarith
    · intro a; constructor <;> linarith
  · constructor <;> rintro ⟨a, b⟩ <;> constructor <;> linarith
  · constructor <;> rintro ⟨a, b⟩ <;> constructor <;> linarith

/-- C28: the QP solved in an iteration of `solve` is the one of `formQP_feasible_iff` at the iterate from which the
iteration started, with the cost gradient as linear term; it is handed to the QP solver through the preconditioner. -/
theorem solve_forms_qp [NeZero n] {env : Env K n me mi prec qps} {st s : State K n me mi prec qps}
    (h : Visited env st s) : ∃ x0 lam0 H mem mem' scaled qpMem p lamK alpha, From env st s x0 lam0 ∧
      prec.compute mem (formQP env.bd x0 H (env.prob.costGrad x0) (env.prob.jac x0) (env.prob.constr x0)) =
        some (mem', scaled) ∧
      (p, lamK) = prec.unscalePair mem' ((qps.solve qpMem scaled).2.1, (qps.solve qpMem scaled).2.2.1) ∧
      s.x = (fun i => x0 i + alpha * p i) ∧ s.lam = fun i => lam0 i + alpha * (lamK i - lam0 i) := by
  obtain ⟨q, s2, hfrom, ⟨H, hH, -⟩, hq, e1, e2, -⟩ := visited_step h
  obtain ⟨mem, scaled, p, lamK, alpha, _, h1, h2, -, -, -, -, h3, h4, -⟩ := qpStep_spec hq
  rw [hH] at h1
  exact ⟨q.x, q.lam, H, q.precMem, mem, scaled, q.qpMem, p, lamK, alpha, hfrom, h1, h2, by rw [e1, h3], by rw [e2, h4]; rfl⟩

example : (formQP demoIneqBounds ![2, -1] 1 (demoIneq.costGrad ![2, -1]) (demoIneq.jac ![2, -1])
    (demoIneq.constr ![2, -1])).Feasible ![-1, 0] := by
  unfold QP.Feasible
  decide +kernel

/-! ## C27 -/

/-- The step returned by the QP solver, after undoing the scaling, is within `δ` of the bounds of the variables in the
unscaled QP, for every QP in which these bounds are consistent. -/
def StepWithin (prec : Precond K n (me + mi)) (qps : QPSolver K n (me + mi)) (δ : K) : Prop :=
  ∀ mem mem' qm qp scaled, (∀ i, qp.xlb i ≤ qp.xub i) → prec.compute mem qp = some (mem', scaled) →
    ∀ i, qp.xlb i - δ ≤ (prec.unscalePair mem' ((qps.solve qm scaled).2.1, (qps.solve qm scaled).2.2.1)).1 i ∧
      (prec.unscalePair mem' ((qps.solve qm scaled).2.1, (qps.solve qm scaled).2.2.1)).1 i ≤ qp.xub i + δ

/-- C27: if the starting point satisfies the bounds of the variables up to `δ` and so does every step with respect to the
shifted bounds, then all iterates satisfy the bounds up to `δ`. -/
theorem iterates_in_box [NeZero n] {env : Env K n me mi prec qps} {st : State K n me mi prec qps} {δ : K}
    (hb : ∀ i, env.bd.lbx i ≤ env.bd.ubx i) (hqp : StepWithin prec qps δ)
    (hα : ∀ h l x p c, 0 ≤ (env.stepSize h l x p c).1 ∧ (env.stepSize h l x p c).1 ≤ 1)
    (h0 : ∀ i, env.bd.lbx i - δ ≤ st.x i ∧ st.x i ≤ env.bd.ubx i + δ) {s : State K n me mi prec qps}
    (h : Visited env st s) : ∀ i, env.bd.lbx i - δ ≤ s.x i ∧ s.x i ≤ env.bd.ubx i + δ := by
  have step : ∀ x0 : Fin n → K, (∀ i, env.bd.lbx i - δ ≤ x0 i ∧ x0 i ≤ env.bd.ubx i + δ) → ∀ (q s2 : State K n me mi prec qps)
      (H : Matrix (Fin n) (Fin n) K), q.x = x0 →
      q.qp = formQP env.bd q.x H (env.prob.costGrad q.x) (env.prob.jac q.x) (env.prob.constr q.x) →
      qpStep env q = some s2 → ∀ i, env.bd.lbx i - δ ≤ s2.x i ∧ s2.x i ≤ env.bd.ubx i + δ := by
    intro x0 hx0 q s2 H hqx hqp' hq i
    obtain ⟨mem, scaled, p, lamK, alpha, logged, h1, h2, -, h4, -, -, h3, -⟩ := qpStep_spec hq
    obtain ⟨a0, a1⟩ := hα s2.qp.h lamK q.x p q.cost
    rw [← h4] at a0 a1
    have hbox := hqp q.precMem mem q.qpMem q.qp scaled (by
      intro i
      rw [hqp']
      simp only [formQP]
      linarith [hb i]) h1 i
    rw [← h2, hqp'] at hbox
    simp only [formQP, hqx] at hbox
    rw [h3, hqx]
    simp only
    obtain ⟨b1, b2⟩ := hbox
    obtain ⟨b3, b4⟩ := hx0 i
    constructor <;> nlinarith
  induction h with
  | first hp =>
    unfold firstPass at hp
    rw [Option.map_eq_some_iff] at hp
    obtain ⟨s2, h2, rfl⟩ := hp
    exact step st.x h0 (linearise env (start st)) s2 _ rfl rfl h2
  | @next v s hv ht hlt hp ih =>
    obtain ⟨s1, s2, h1, h2, rfl⟩ := pass_parts hp
    obtain ⟨H, -, hs1⟩ := updateLinearisation_spec h1
    have e1 : s1.x = v.x := by rw [hs1]
    have e3 : s1.qp = formQP env.bd s1.x H (env.prob.costGrad s1.x) (env.prob.jac s1.x) (env.prob.constr s1.x) := by
      rw [hs1]
    have := step v.x ih s1 s2 H e1 e3 h2
    rw [← (callback_fields env s2).1] at this
    exact this

/-- C27: the default solver with `0 < tau ≤ 1` returns a point within the bounds if the starting point is within them and
the QP solver respects the bounds of every consistent QP; no preconditioner. -/
theorem solve_in_box [NeZero n] {qps : QPSolver K n (me + mi)} {eps : K} {cfg : Settings K} (h0 : 0 < cfg.tau)
    (h1 : cfg.tau ≤ 1) {prob : Problem K n me mi} {bd : Bounds K n mi} {st r : State K n me mi (identityPrecond K n (me + mi)) qps}
    (hqp : ∀ m qp, (∀ i, qp.xlb i ≤ qp.xub i) → ∀ i, qp.xlb i ≤ (qps.solve m qp).2.1 i ∧ (qps.solve m qp).2.1 i ≤ qp.xub i)
    (hx : ∀ i, bd.lbx i ≤ st.x i ∧ st.x i ≤ bd.ubx i) (h : solve (defaultEnv eps cfg prob bd) st = some r) :
    ∀ i, bd.lbx i ≤ r.x i ∧ r.x i ≤ bd.ubx i := by
  obtain ⟨s, hv, hc⟩ := solve_cases h
  have := iterates_in_box (env := defaultEnv eps cfg prob bd) (δ := 0) (fun i => (hx i).1.trans (hx i).2)
    (fun mem mem' qm qp scaled hc hco i => by
      obtain rfl : qp = scaled := congrArg Prod.snd (Option.some.inj hco)
      simpa [identityPrecond] using hqp qm qp hc i)
    (fun h l x p c => ⟨(lineSearch_range h0 h1 prob bd h l x p c).1.le, (lineSearch_range h0 h1 prob bd h l x p c).2⟩)
    (by simpa [defaultEnv] using hx) hv
  have hrs : r.x = s.x := by
    rcases hc with ⟨-, rfl⟩ | ⟨-, -, rfl⟩ <;> rfl
  rw [hrs]
  simpa [defaultEnv] using this

/-- C27: the same with Ruiz equilibration as preconditioner. -/
theorem solve_in_box_ruiz [NeZero n] [NeZero (me + mi)] {qps : QPSolver K n (me + mi)} {eps : K} {cfg : Settings K}
    {var : Ruiz.Variant K n (me + mi)} (hz : 0 < var.approxZero) (hh : Ruiz.HNormNonneg var) {sq : K → K} (hsq : IsSqrt sq)
    (h0 : 0 < cfg.tau) (h1 : cfg.tau ≤ 1) {prob : Problem K n me mi} {bd : Bounds K n mi}
    {st r : State K n me mi (ruizPrecond var sq) qps}
    (hqp : ∀ m qp, (∀ i, qp.xlb i ≤ qp.xub i) → ∀ i, qp.xlb i ≤ (qps.solve m qp).2.1 i ∧ (qps.solve m qp).2.1 i ≤ qp.xub i)
    (hx : ∀ i, bd.lbx i ≤ st.x i ∧ st.x i ≤ bd.ubx i) (h : solve (defaultEnv eps cfg prob bd) st = some r) :
    ∀ i, bd.lbx i ≤ r.x i ∧ r.x i ≤ bd.ubx i := by
  obtain ⟨s, hv, hc⟩ := solve_cases h
  have := iterates_in_box (env := defaultEnv eps cfg prob bd) (δ := 0) (fun i => (hx i).1.trans (hx i).2)
    (fun mem mem' qm qp scaled hc hco i => by
      obtain ⟨hP, rfl⟩ := Ruiz.compute_eq_scale (P := mem) hz hh hsq hco
      have hD := hP.D
      have := hqp qm (Ruiz.scale mem' qp) (fun i => by
        simp only [Ruiz.scale, Ruiz.scaleBounds, Ruiz.scaleMatrices]
        exact mul_le_mul_of_nonneg_right (hc i) (inv_pos.mpr (hD i)).le) i
      simp only [ruizPrecond, Ruiz.unscalePair, sub_zero, add_zero]
      simp only [Ruiz.scale, Ruiz.scaleBounds, Ruiz.scaleMatrices] at this ⊢
      rw [← div_eq_mul_inv, ← div_eq_mul_inv, div_le_iff₀ (hD i), le_div_iff₀ (hD i)] at this
      exact ⟨this.1, this.2⟩)
    (fun h l x p c => ⟨(lineSearch_range h0 h1 prob bd h l x p c).1.le, (lineSearch_range h0 h1 prob bd h l x p c).2⟩)
    (by simpa [defaultEnv] using hx) hv
  have hrs : r.x = s.x := by
    rcases hc with ⟨-, rfl⟩ | ⟨-, -, rfl⟩ <;> rfl
  rw [hrs]
  simpa [defaultEnv] using this

/-- There is a QP solver which respects the bounds: projected gradient steps do, here one step from `0`. -/
example : ∃ qps : QPSolver ℚ 2 (0 + 1), ∀ m qp, (∀ i, qp.xlb i ≤ qp.xub i) →
    ∀ i, qp.xlb i ≤ (qps.solve m qp).2.1 i ∧ (qps.solve m qp).2.1 i ≤ qp.xub i :=
  ⟨{ Mem := PUnit, solve := fun _ qp => (PUnit.unit, fun i => max (qp.xlb i) (min (-qp.h i) (qp.xub i)), 0, 1) },
    fun _ qp hc i => ⟨le_max_left _ _, max_le (hc i) (min_le_right _ _)⟩⟩

end PolyMPC.Sqp
