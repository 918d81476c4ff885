import Verif.Props.SqpLocal
import Verif.Props.SqpQuadratic
import Verif.Lemmas.SqpGlobal
import Verif.Lemmas.Farkas

/-!
# Convergence of the SQP solver with line search from any feasible guess (C185, C186)

If the constraints are affine and the guess satisfies them, all iterates satisfy them, and the merit function of the line search decreases like the cost. If there are only bounds on the variables,
the multipliers converge as well and the termination test succeeds, after a number of iterations that can be computed beforehand.
-/

namespace PolyMPC.Sqp
open Matrix PolyMPC.Spec PolyMPC.QuasiNewton Set
set_option linter.unusedSectionVars false

variable {n me mi : ℕ} {prec : Precond ℝ n (me + mi)} {qps : QPSolver ℝ n (me + mi)}

/-! ## One iteration -/

section step
variable [NeZero n] {env : Env ℝ n me mi prec qps} {upd : State ℝ n me mi prec qps → Option (State ℝ n me mi prec qps)} {st : State ℝ n me mi prec qps}

/-- The state `s` after an iteration from variables `x0` and multipliers `lam0`, with QP Hessian `H`, QP solution `p` and step size `a`. -/
structure Step (env : Env ℝ n me mi prec qps) (x0 : Fin n → ℝ) (lam0 : Dual ℝ n me mi) (H : Matrix (Fin n) (Fin n) ℝ) (p : Fin n → ℝ) (a : ℝ) (s : State ℝ n me mi prec qps) : Prop where
  kkt : (formQP env.bd x0 H (env.prob.costGrad x0) (env.prob.jac x0) (env.prob.constr x0)).KKT p s.lamK
  hess : s.qp.H = H
  size : ∃ c, a = (env.stepSize (env.prob.costGrad x0) s.lamK x0 p c).1
  x : s.x = x0 + a • p
  lam : s.lam = lam0 + a • (s.lamK - lam0)
  primal : s.primalNorm = a * infNorm p
  dual : s.dualNorm = a * infNorm (s.lamK - lam0)
  viol : s.maxViolation = maxConstraintsViolation env.prob env.bd s.x

theorem qpStep_step (hl : LawfulPrecond prec) (hpd : ∀ m qp, ∃ r, prec.compute m qp = some r) (hex : ExactQP qps) {q : State ℝ n me mi prec qps} {H : Matrix (Fin n) (Fin n) ℝ}
    (hq : q.qp = formQP env.bd q.x H (env.prob.costGrad q.x) (env.prob.jac q.x) (env.prob.constr q.x)) (hH : SPD H)
    (hk : ∃ p y, (formQP env.bd q.x H (env.prob.costGrad q.x) (env.prob.jac q.x) (env.prob.constr q.x)).KKT p y) :
    ∃ s p a, qpStep env q = some s ∧ Step env q.x q.lam H p a (measure env s) ∧ s.iter = q.iter ∧ s.status = q.status := by
  obtain ⟨c, hcm⟩ := hpd q.precMem q.qp
  obtain ⟨s, hs⟩ : ∃ s, qpStep env q = some s := ⟨_, by rw [qpStep, hcm]; rfl⟩
  have hHq : SPD q.qp.H := by rw [hq]; exact hH
  obtain ⟨p, k1, k2, k3, k4, k5, k6⟩ := qpStep_exact hl hex hs hHq (by rw [hq]; exact hk)
  obtain ⟨_, _, p', lamK', α', _, n1, n2, n3, m4, m5, -, m6, -, m7, m8, m9, m10, m11, -⟩ := qpStep_spec hs
  have hh : q.qp.h = env.prob.costGrad q.x := by rw [hq]; rfl
  have hp : p' = p := by
    have hk2 := hl.kkt n1 _ _ (hex q.qpMem _ (hl.spd n1 hHq) (hl.kkt_exists n1 (by rw [hq]; exact hk)))
    rw [← n2] at hk2
    exact kkt_primal_unique hHq hk2 k1
  have hα : α' = (env.stepSize (env.prob.costGrad q.x) s.lamK q.x p q.cost).1 := by
    have := congrArg Prod.fst m4
    rw [k2, hh, hp, ← m5] at this
    exact this
  rw [hh, ← hα] at k3 k5 k6
  refine ⟨s, p, α', hs, ⟨?_, ?_, ⟨_, hα⟩, k3, k5, k6, ?_, rfl⟩, m10, m11⟩
  · show (formQP env.bd q.x H _ _ _).KKT p s.lamK
    rw [← hq]; exact k1
  · show s.qp.H = H
    rw [k2, hq]; rfl
  · show s.dualNorm = α' * infNorm (s.lamK - q.lam)
    rw [m9, m5]

theorem firstPass_step (hl : LawfulPrecond prec) (hpd : ∀ m qp, ∃ r, prec.compute m qp = some r) (hex : ExactQP qps) (hH : SPD (env.regularise (env.prob.lagHess st.x st.lam)))
    (hk : ∃ p y, (formQP env.bd st.x (env.regularise (env.prob.lagHess st.x st.lam)) (env.prob.costGrad st.x) (env.prob.jac st.x) (env.prob.constr st.x)).KKT p y) :
    ∃ s p a, firstPass env st = some s ∧ Step env st.x st.lam (env.regularise (env.prob.lagHess st.x st.lam)) p a s ∧ s.iter = 1 ∧ s.status = .MAX_ITER_EXCEEDED := by
  obtain ⟨s, p, a, h1, h2, h3, h4⟩ := qpStep_step (q := linearise env (start st)) hl hpd hex rfl hH hk
  exact ⟨measure env s, p, a, by rw [firstPass, h1]; rfl, h2, h3, h4⟩

/-- What an update of the linearisation does from the state `v`: it keeps variables, multipliers and status and forms the QP with the Hessian `H`. -/
def Forms (env : Env ℝ n me mi prec qps) (upd : State ℝ n me mi prec qps → Option (State ℝ n me mi prec qps)) (v : State ℝ n me mi prec qps) (H : Matrix (Fin n) (Fin n) ℝ) : Prop :=
  ∃ q, upd { v with iter := v.iter + 1 } = some q ∧ q.x = v.x ∧ q.lam = v.lam ∧ q.iter = v.iter + 1 ∧ q.status = v.status ∧
    q.qp = formQP env.bd v.x H (env.prob.costGrad v.x) (env.prob.jac v.x) (env.prob.constr v.x)

theorem passWith_step (hl : LawfulPrecond prec) (hpd : ∀ m qp, ∃ r, prec.compute m qp = some r) (hex : ExactQP qps) {v : State ℝ n me mi prec qps}
    {H : Matrix (Fin n) (Fin n) ℝ} (hu : Forms env upd v H) (hH : SPD H)
    (hk : ∃ p y, (formQP env.bd v.x H (env.prob.costGrad v.x) (env.prob.jac v.x) (env.prob.constr v.x)).KKT p y) :
    ∃ s p a, passWith env upd v = some s ∧ Step env v.x v.lam H p a s ∧ s.iter = v.iter + 1 ∧ s.status = v.status := by
  obtain ⟨q, hu, hx, hlam, hit, hst, hq⟩ := hu
  obtain ⟨s, p, a, h1, h2, h3, h4⟩ := qpStep_step (q := q) (H := H) hl hpd hex (by rw [hx]; exact hq) hH (by rw [hx]; exact hk)
  obtain ⟨c1, c2, c3, c4, c5, c6, c7, -, c9, -⟩ := callback_fields env s
  rw [hx, hlam] at h2
  obtain ⟨e1, e2, e3, e4, e5, e6, e7, -⟩ := h2
  refine ⟨measure env (callback env s), p, a, by rw [passWith, hu, Option.bind_some, h1]; rfl, ⟨?_, ?_, ?_, ?_, ?_, ?_, ?_, rfl⟩, ?_, ?_⟩
  · show (formQP env.bd v.x H _ _ _).KKT p (callback env s).lamK
    rw [c9]; exact e1
  · show (callback env s).qp.H = H
    rw [c7]; exact e2
  · show ∃ c, a = (env.stepSize _ (callback env s).lamK v.x p c).1
    rw [c9]; exact e3
  · show (callback env s).x = _
    rw [c1]; exact e4
  · show (callback env s).lam = v.lam + a • ((callback env s).lamK - v.lam)
    rw [c2, c9]; exact e5
  · show (callback env s).primalNorm = _
    rw [c5]; exact e6
  · show (callback env s).dualNorm = a * infNorm ((callback env s).lamK - v.lam)
    rw [c6, c9]; exact e7
  · show (callback env s).iter = _
    rw [c3, h3, hit]
  · show (callback env s).status = _
    rw [c4, h4, hst]

theorem forms_exact (v : State ℝ n me mi prec qps) : Forms env (exactUpdate env) v (env.regularise (env.prob.lagHess v.x v.lam)) :=
  ⟨_, rfl, rfl, rfl, rfl, rfl, rfl⟩

/-- A run in which every iteration can be carried out ends at an iterate that passes the termination test or with the iteration limit. -/
theorem solveWith_stops (h1 : ∃ s, firstPass env st = some s ∧ s.iter = 1)
    (hstep : ∀ k v, Iterate env upd st (k + 1) v → terminated env v = false → v.iter < env.cfg.maxIter → ∃ s, passWith env upd v = some s ∧ s.iter = v.iter + 1) :
    ∃ r, solveWith env upd st = some r ∧ ∃ k s, Iterate env upd st (k + 1) s ∧ s.iter = (k + 1 : ℕ) ∧
      ((terminated env s = true ∧ r = { s with status := .SOLVED }) ∨ (terminated env s = false ∧ r = s ∧ env.cfg.maxIter ≤ (k + 1 : ℕ))) := by
  have hloop : ∀ fuel k s, Iterate env upd st (k + 1) s → terminated env s = false → s.iter = (k + 1 : ℕ) → (env.cfg.maxIter - s.iter).toNat ≤ fuel →
      ∃ r, loopWith env upd fuel s = some r ∧ ∃ k s, Iterate env upd st (k + 1) s ∧ s.iter = (k + 1 : ℕ) ∧
        ((terminated env s = true ∧ r = { s with status := .SOLVED }) ∨ (terminated env s = false ∧ r = s ∧ env.cfg.maxIter ≤ (k + 1 : ℕ))) := by
    intro fuel
    induction fuel with
    | zero => intro k s hs ht hi hf; exact ⟨s, rfl, k, s, hs, hi, Or.inr ⟨ht, rfl, by omega⟩⟩
    | succ fuel ih =>
      intro k s hs ht hi hf
      by_cases hlt : s.iter < env.cfg.maxIter
      · obtain ⟨s', h2, h3⟩ := hstep k s hs ht hlt
        have hs' : Iterate env upd st (k + 1 + 1) s' := .next hs ht hlt h2
        have hi' : s'.iter = (k + 1 + 1 : ℕ) := by rw [h3, hi]; push_cast; rfl
        rw [loopWith, if_pos hlt, h2, Option.bind_some]
        by_cases ht' : terminated env s' = true
        · rw [if_pos ht']
          exact ⟨_, rfl, k + 1, s', hs', hi', Or.inl ⟨ht', rfl⟩⟩
        · rw [if_neg ht']
          exact ih (k + 1) s' hs' (by simpa using ht') hi' (by omega)
      · rw [loopWith, if_neg hlt]
        exact ⟨s, rfl, k, s, hs, hi, Or.inr ⟨ht, rfl, by omega⟩⟩
  obtain ⟨s, h2, h3⟩ := h1
  rw [solveWith_eq, h2, Option.bind_some]
  by_cases ht : terminated env s = true
  · rw [if_pos ht]
    exact ⟨_, rfl, 0, s, .first h2, by rw [h3]; rfl, Or.inl ⟨ht, rfl⟩⟩
  · rw [if_neg ht]
    exact hloop _ 0 s (.first h2) (by simpa using ht) (by rw [h3]; rfl) (by omega)

end step

/-! ## Affine constraints -/

/-- The points that satisfy the constraints. -/
def feasibleSet (prob : Problem ℝ n me mi) (bd : Bounds ℝ n mi) : Set (Fin n → ℝ) :=
  {x | NlpFeasible (prob.eq x) (prob.ineq x) bd.lbg bd.ubg x bd.lbx bd.ubx}

/-- The constraints of the problem are affine and agree with the linearisation the problem returns. -/
structure AffineConstraints (prob : Problem ℝ n me mi) : Prop where
  coherent : Coherent prob
  affine : ∀ x p, prob.constr (x + p) = prob.constr x + prob.jac x *ᵥ p

section affine
variable {prob : Problem ℝ n me mi} {bd : Bounds ℝ n mi}

theorem AffineConstraints.feasible_iff (h : AffineConstraints prob) (x p : Fin n → ℝ) (H : Matrix (Fin n) (Fin n) ℝ) (g : Fin n → ℝ) :
    (formQP bd x H g (prob.jac x) (prob.constr x)).Feasible p ↔ x + p ∈ feasibleSet prob bd := by
  rw [formQP_feasible_iff]
  have h1 : ((fun i => prob.constr x (Fin.castAdd mi i)) + eqRows (prob.jac x) *ᵥ p) = prob.eq (x + p) := by
    funext i
    rw [← (h.coherent (x + p)).1, h.affine]; rfl
  have h2 : ((fun i => prob.constr x (Fin.natAdd me i)) + ineqRows (prob.jac x) *ᵥ p) = prob.ineq (x + p) := by
    funext i
    rw [← (h.coherent (x + p)).2, h.affine]; rfl
  rw [h1, h2]; rfl

theorem AffineConstraints.convex (h : AffineConstraints prob) : Convex ℝ (feasibleSet prob bd) := by
  intro x hx y hy a b ha hb hab
  have hz : a • x + b • y = x + b • (y - x) := by
    have : a = 1 - b := by linarith
    rw [this, sub_smul, one_smul, smul_sub]; abel
  have hy' : x + (y - x) ∈ feasibleSet prob bd := by rw [add_sub_cancel]; exact hy
  have hx' : x + (0 : Fin n → ℝ) ∈ feasibleSet prob bd := by rw [add_zero]; exact hx
  rw [hz, ← h.feasible_iff x _ 0 0]
  rw [← h.feasible_iff x _ 0 0] at hy' hx'
  obtain ⟨y1, y2⟩ := hy'
  obtain ⟨x1, x2⟩ := hx'
  rw [mulVec_zero] at x1
  have hb1 : b ≤ 1 := by linarith
  refine ⟨fun i => ?_, fun i => ?_⟩
  · rw [mulVec_smul, Pi.smul_apply, smul_eq_mul]
    have a1 := y1 i
    have a2 := x1 i
    rw [Pi.zero_apply] at a2
    constructor
    · nlinarith [mul_nonneg hb (sub_nonneg.2 a1.1), mul_nonneg (sub_nonneg.2 hb1) (sub_nonneg.2 a2.1)]
    · nlinarith [mul_nonneg hb (sub_nonneg.2 a1.2), mul_nonneg (sub_nonneg.2 hb1) (sub_nonneg.2 a2.2)]
  · rw [Pi.smul_apply, smul_eq_mul]
    have a1 := y2 i
    have a2 := x2 i
    rw [Pi.zero_apply] at a2
    constructor
    · nlinarith [mul_nonneg hb (sub_nonneg.2 a1.1), mul_nonneg (sub_nonneg.2 hb1) (sub_nonneg.2 a2.1)]
    · nlinarith [mul_nonneg hb (sub_nonneg.2 a1.2), mul_nonneg (sub_nonneg.2 hb1) (sub_nonneg.2 a2.2)]

end affine

/-- What is assumed of the solver: a preconditioner that is undone exactly, an exact QP solver, and the line search of `SQPBase` with `0 < tau ≤ 1` and `0 < eta`. -/
structure LineSearching (eps : ℝ) (env : Env ℝ n me mi prec qps) : Prop where
  precond : LawfulPrecond prec
  computes : ∀ m qp, ∃ r, prec.compute m qp = some r
  qp : ExactQP qps
  search : env.stepSize = lineSearch eps env.cfg env.prob env.bd
  eps : 0 ≤ eps
  tau : 0 < env.cfg.tau
  tau1 : env.cfg.tau ≤ 1
  eta : 0 < env.cfg.eta

/-- What is assumed of the cost on the feasible set, and of the smallest step size of the line search. -/
structure SmoothCost (env : Env ℝ n me mi prec qps) (L m : ℝ) : Prop where
  gradient : HasGradientOn env.prob.cost env.prob.costGrad (feasibleSet env.prob env.bd)
  lipschitz : EuclideanLipschitzOn env.prob.costGrad L (feasibleSet env.prob env.bd)
  nonneg : 0 ≤ L
  smallest : env.cfg.tau ^ (env.cfg.lineSearchMaxIter - 1).toNat * L ≤ m

theorem _root_.PolyMPC.Spec.CurvatureBetween.spd {m M : ℝ} (hm : 0 < m) {H : Matrix (Fin n) (Fin n) ℝ} (h : CurvatureBetween m M H) : SPD H :=
  ⟨h.1, fun x hx => lt_of_lt_of_le (mul_pos hm (lt_of_le_of_ne (dot_self_nonneg x) fun h0 => hx (dotProduct_self_eq_zero.1 h0.symm))) (h.2.1 x)⟩

section decrease
variable {eps L m M : ℝ} {env : Env ℝ n me mi prec qps}

/-- The QP at a feasible point has a solution. -/
theorem AffineConstraints.solvable (hA : AffineConstraints env.prob) {x : Fin n → ℝ} (hx : x ∈ feasibleSet env.prob env.bd) {H : Matrix (Fin n) (Fin n) ℝ} (hH : Hᵀ = H) :
    ∃ p y, (formQP env.bd x H (env.prob.costGrad x) (env.prob.jac x) (env.prob.constr x)).KKT p y := by
  refine (QP.exists_kkt_iff (qp := formQP env.bd x H (env.prob.costGrad x) (env.prob.jac x) (env.prob.constr x)) hH).2 ⟨0, ?_⟩
  rw [hA.feasible_iff, add_zero]; exact hx

/-- An iteration from a feasible point leads to a feasible point and decreases the cost. -/
theorem step_decreases (hs : LineSearching eps env) (hA : AffineConstraints env.prob) (hf : SmoothCost env L m) (hm : 0 < m) {x0 : Fin n → ℝ} (hx : x0 ∈ feasibleSet env.prob env.bd)
    {lam0 : Dual ℝ n me mi} {H : Matrix (Fin n) (Fin n) ℝ} (hH : CurvatureBetween m M H) {p : Fin n → ℝ} {a : ℝ} {s : State ℝ n me mi prec qps} [NeZero n]
    (h : Step env x0 lam0 H p a s) :
    0 < a ∧ a ≤ 1 ∧ env.cfg.tau ^ (env.cfg.lineSearchMaxIter - 1).toNat ≤ a ∧ s.x ∈ feasibleSet env.prob env.bd ∧
      env.prob.cost s.x + a * (m * min env.cfg.eta (1 / 2) * (p ⬝ᵥ p)) ≤ env.prob.cost x0 := by
  obtain ⟨c, ha⟩ := h.size
  rw [hs.search] at ha
  obtain ⟨k, k1, k2, k3, -⟩ := lineSearch_spec eps env.cfg env.prob env.bd (env.prob.costGrad x0) s.lamK x0 p c
  rw [← ha] at k2
  have ha0 : 0 < a := by rw [k2]; exact pow_pos hs.tau k
  have ha1 : a ≤ 1 := by rw [k2]; exact pow_le_one₀ hs.tau.le hs.tau1
  have hfull : x0 + p ∈ feasibleSet env.prob env.bd := (hA.feasible_iff x0 p H _).1 ((QP.feasible_iff _ _).2 fun i => (h.kkt.2 i).1)
  have hsx : s.x ∈ feasibleSet env.prob env.bd := by
    rw [h.x]
    have := (hA.convex (bd := env.bd)).add_smul_sub_mem hx hfull (t := a) ⟨ha0.le, ha1⟩
    rwa [add_sub_cancel_left] at this
  have hv : ∀ z ∈ feasibleSet env.prob env.bd, l1Violation (env.prob.eq z) (env.prob.ineq z) env.bd.lbg env.bd.ubg z env.bd.lbx env.bd.ubx = 0 :=
    fun z hz => (l1Violation_eq_zero_iff _ _ _ _ _ _ _).2 hz
  have hslope : env.prob.costGrad x0 ⬝ᵥ p ≤ -(m * (p ⬝ᵥ p)) := by
    have h1 := slope_le h.kkt
    have e1 : (fun i => env.prob.constr x0 (Fin.castAdd mi i)) = env.prob.eq x0 := funext (hA.coherent x0).1
    have e2 : (fun i => env.prob.constr x0 (Fin.natAdd me i)) = env.prob.ineq x0 := funext (hA.coherent x0).2
    rw [e1, e2, hv x0 hx, mul_zero, sub_zero] at h1
    linarith [hH.2.1 p]
  have hpp := dot_self_nonneg p
  have hmin0 : 0 < min env.cfg.eta (1 / 2) := lt_min hs.eta (by norm_num)
  have hlow : env.cfg.tau ^ (env.cfg.lineSearchMaxIter - 1).toNat ≤ a := by
    rw [k2]
    refine pow_le_pow_of_le_one hs.tau.le hs.tau1 ?_
    rcases le_total env.cfg.lineSearchMaxIter 1 with hle | hle
    · rw [max_eq_left hle] at k1; omega
    · rw [max_eq_right hle] at k1; omega
  refine ⟨ha0, ha1, hlow, hsx, ?_⟩
  have hmp : 0 ≤ a * (m * (p ⬝ᵥ p)) := mul_nonneg ha0.le (mul_nonneg hm.le hpp)
  by_cases hk : (k : ℤ) < env.cfg.lineSearchMaxIter - 1
  · have h1 := k3 hk
    unfold Armijo merit at h1
    have ex : (fun i => x0 i + env.cfg.tau ^ k * p i) = s.x := by rw [h.x, k2]; rfl
    rw [ex, hv _ hsx, hv _ hx, ← k2, add_zero] at h1
    have hmu : 0 ≤ infNorm s.lamK * eps := mul_nonneg (infNorm_nonneg _) hs.eps
    have h2 : a * env.cfg.eta * (env.prob.costGrad x0 ⬝ᵥ p - infNorm s.lamK * eps) ≤ a * env.cfg.eta * (-(m * (p ⬝ᵥ p))) :=
      mul_le_mul_of_nonneg_left (by linarith) (mul_nonneg ha0.le hs.eta.le)
    have h3 : a * (m * min env.cfg.eta (1 / 2) * (p ⬝ᵥ p)) ≤ a * env.cfg.eta * (m * (p ⬝ᵥ p)) := by
      have := mul_le_mul_of_nonneg_left (min_le_left env.cfg.eta (1 / 2)) hmp
      linarith
    linarith
  · have hexh : a = env.cfg.tau ^ (env.cfg.lineSearchMaxIter - 1).toNat := by
      rw [k2]; congr 1
      rcases le_total env.cfg.lineSearchMaxIter 1 with hle | hle
      · rw [max_eq_left hle] at k1; omega
      · rw [max_eq_right hle] at k1; omega
    have h1 := descent (hA.convex (bd := env.bd)) hf.nonneg hf.gradient hf.lipschitz hx hsx
    have e1 : s.x - x0 = a • p := by rw [h.x, add_sub_cancel_left]
    rw [e1, dotProduct_smul, smul_dotProduct, dotProduct_smul, smul_eq_mul, smul_eq_mul, smul_eq_mul] at h1
    have h2 : a * L ≤ m := by rw [hexh]; exact hf.smallest
    have h3 := mul_le_mul_of_nonneg_right h2 (mul_nonneg ha0.le hpp)
    have h4 := mul_le_mul_of_nonneg_left hslope ha0.le
    have h5 : a * (m * min env.cfg.eta (1 / 2) * (p ⬝ᵥ p)) ≤ 1 / 2 * (a * (m * (p ⬝ᵥ p))) := by
      have := mul_le_mul_of_nonneg_left (min_le_right env.cfg.eta (1 / 2)) hmp
      linarith
    linarith

end decrease

/-! ## Runs with affine constraints -/

/-- The Hessians of all QPs formed in the run have curvature between `m` and `M`. -/
structure HessiansBetween [NeZero n] (env : Env ℝ n me mi prec qps) (upd : State ℝ n me mi prec qps → Option (State ℝ n me mi prec qps)) (st : State ℝ n me mi prec qps) (m M : ℝ) :
    Prop where
  first : CurvatureBetween m M (env.regularise (env.prob.lagHess st.x st.lam))
  next : ∀ k v, Iterate env upd st (k + 1) v → v.x ∈ feasibleSet env.prob env.bd → terminated env v = false → v.iter < env.cfg.maxIter → ∃ H, Forms env upd v H ∧ CurvatureBetween m M H

section runs
variable [NeZero n] {eps L m M : ℝ} {env : Env ℝ n me mi prec qps} {upd : State ℝ n me mi prec qps → Option (State ℝ n me mi prec qps)} {st : State ℝ n me mi prec qps}

theorem first_step (hs : LineSearching eps env) (hA : AffineConstraints env.prob) (hm : 0 < m) (hH : HessiansBetween env upd st m M) (hx : st.x ∈ feasibleSet env.prob env.bd) :
    ∃ s p a, firstPass env st = some s ∧ Step env st.x st.lam (env.regularise (env.prob.lagHess st.x st.lam)) p a s ∧ s.iter = 1 ∧ s.status = .MAX_ITER_EXCEEDED :=
  firstPass_step hs.precond hs.computes hs.qp (hH.first.spd hm) (hA.solvable hx hH.first.1)

theorem next_step (hs : LineSearching eps env) (hA : AffineConstraints env.prob) (hm : 0 < m) (hH : HessiansBetween env upd st m M) {k : ℕ} {v : State ℝ n me mi prec qps}
    (hv : Iterate env upd st (k + 1) v) (hx : v.x ∈ feasibleSet env.prob env.bd) (ht : terminated env v = false) (hi : v.iter < env.cfg.maxIter) :
    ∃ s H p a, passWith env upd v = some s ∧ CurvatureBetween m M H ∧ Step env v.x v.lam H p a s ∧ s.iter = v.iter + 1 ∧ s.status = v.status := by
  obtain ⟨H, hF, hB⟩ := hH.next k v hv hx ht hi
  obtain ⟨s, p, a, h1, h2, h3⟩ := passWith_step hs.precond hs.computes hs.qp hF (hB.spd hm) (hA.solvable hx hB.1)
  exact ⟨s, H, p, a, h1, hB, h2, h3⟩

/-- All iterates are feasible. -/
theorem iterates_feasible (hs : LineSearching eps env) (hA : AffineConstraints env.prob) (hf : SmoothCost env L m) (hm : 0 < m) (hH : HessiansBetween env upd st m M)
    (hx : st.x ∈ feasibleSet env.prob env.bd) {k : ℕ} {s : State ℝ n me mi prec qps} (h : Iterate env upd st k s) : s.x ∈ feasibleSet env.prob env.bd := by
  induction h with
  | guess => exact hx
  | first h1 =>
    obtain ⟨s', p, a, h2, h3, -⟩ := first_step hs hA hm hH hx
    obtain rfl := Option.some.inj (h1.symm.trans h2)
    exact (step_decreases hs hA hf hm hx hH.first h3).2.2.2.1
  | next hv ht hi hp ih =>
    obtain ⟨s', H, p, a, h2, hB, h3, -⟩ := next_step hs hA hm hH hv ih ht hi
    obtain rfl := Option.some.inj (hp.symm.trans h2)
    exact (step_decreases hs hA hf hm ih hB h3).2.2.2.1

theorem iterates_status (hs : LineSearching eps env) (hA : AffineConstraints env.prob) (hf : SmoothCost env L m) (hm : 0 < m) (hH : HessiansBetween env upd st m M)
    (hx : st.x ∈ feasibleSet env.prob env.bd) (k : ℕ) {s : State ℝ n me mi prec qps} (h : Iterate env upd st (k + 1) s) : s.status = .MAX_ITER_EXCEEDED := by
  induction k generalizing s with
  | zero =>
    cases h with
    | first h1 =>
      obtain ⟨s', p, a, h2, -, -, h3⟩ := first_step hs hA hm hH hx
      obtain rfl := Option.some.inj (h1.symm.trans h2)
      exact h3
  | succ k ih =>
    cases h with
    | next hv ht hi hp =>
      obtain ⟨s', H, p, a, h2, -, -, -, h3⟩ := next_step hs hA hm hH hv (iterates_feasible hs hA hf hm hH hx hv) ht hi
      obtain rfl := Option.some.inj (hp.symm.trans h2)
      exact h3.trans (ih hv)

/-- Two successive iterates are related by one iteration. -/
theorem iterates_step (hs : LineSearching eps env) (hA : AffineConstraints env.prob) (hf : SmoothCost env L m) (hm : 0 < m) (hH : HessiansBetween env upd st m M)
    (hx : st.x ∈ feasibleSet env.prob env.bd) {k : ℕ} {v s : State ℝ n me mi prec qps} (hv : Iterate env upd st k v) (h : Iterate env upd st (k + 1) s) :
    ∃ H p a, CurvatureBetween m M H ∧ Step env v.x v.lam H p a s := by
  cases h with
  | first h1 =>
    obtain ⟨s', p, a, h2, h3, -⟩ := first_step hs hA hm hH hx
    obtain rfl := Option.some.inj (h1.symm.trans h2)
    cases hv
    exact ⟨_, p, a, hH.first, h3⟩
  | next hv' ht hi hp =>
    obtain rfl := hv.unique hv'
    obtain ⟨s', H, p, a, h2, hB, h3, -⟩ := next_step hs hA hm hH hv' (iterates_feasible hs hA hf hm hH hx hv') ht hi
    obtain rfl := Option.some.inj (hp.symm.trans h2)
    exact ⟨H, p, a, hB, h3⟩

theorem run_stops (hs : LineSearching eps env) (hA : AffineConstraints env.prob) (hf : SmoothCost env L m) (hm : 0 < m) (hH : HessiansBetween env upd st m M)
    (hx : st.x ∈ feasibleSet env.prob env.bd) :
    ∃ r, solveWith env upd st = some r ∧ ∃ k s, Iterate env upd st (k + 1) s ∧ s.iter = (k + 1 : ℕ) ∧
      ((terminated env s = true ∧ r = { s with status := .SOLVED }) ∨ (terminated env s = false ∧ r = s ∧ env.cfg.maxIter ≤ (k + 1 : ℕ))) := by
  refine solveWith_stops ?_ fun k v hv ht hi => ?_
  · obtain ⟨s, -, -, h1, -, h2, -⟩ := first_step hs hA hm hH hx
    exact ⟨s, h1, h2⟩
  · obtain ⟨s, -, -, -, h1, -, -, h2, -⟩ := next_step hs hA hm hH hv (iterates_feasible hs hA hf hm hH hx hv) ht hi
    exact ⟨s, h1, h2⟩

theorem sq_infNorm_le {ι : Type*} [Fintype ι] (v : ι → ℝ) : infNorm v ^ 2 ≤ v ⬝ᵥ v := by
  rcases infNorm_attained v with h | ⟨i, h⟩
  · rw [h, zero_pow two_ne_zero]; exact dot_self_nonneg v
  · rw [← h, sq_abs]; exact sq_abs_le_dot v i

/-- A step longer than `δ` has `a (p ⬝ p) > δ²`. -/
theorem long_step {ι : Type*} [Fintype ι] {p : ι → ℝ} {a δ : ℝ} (ha0 : 0 < a) (ha1 : a ≤ 1) (hδ : 0 ≤ δ) (h : δ < a * infNorm p) : δ ^ 2 < a * (p ⬝ᵥ p) := by
  have h1 : δ ^ 2 < (a * infNorm p) ^ 2 := by gcongr
  have h2 := mul_le_mul_of_nonneg_left (sq_infNorm_le p) (sq_nonneg a)
  have h3 := mul_le_mul_of_nonneg_right ha1 (mul_nonneg ha0.le (dot_self_nonneg p))
  nlinarith

/-- **C185.** Let the constraints be affine, the guess feasible, the gradient of the cost Lipschitz on the feasible set, and the curvature of the QPs at least `m > 0`. Then `solve` is defined; all
iterates, and hence the returned point, are feasible; the cost decreases from iterate to iterate; and if `k` iterations all had steps longer than `δ`, the cost has decreased by
`k m min(eta, 1/2) δ²`. -/
theorem affine_run (hs : LineSearching eps env) (hA : AffineConstraints env.prob) (hf : SmoothCost env L m) (hm : 0 < m) (hH : HessiansBetween env upd st m M)
    (hx : st.x ∈ feasibleSet env.prob env.bd) :
    (∃ r, solveWith env upd st = some r ∧ r.x ∈ feasibleSet env.prob env.bd ∧ env.prob.cost r.x ≤ env.prob.cost st.x) ∧
    (∀ k s, Iterate env upd st k s → s.x ∈ feasibleSet env.prob env.bd) ∧
    (∀ k v s, Iterate env upd st k v → Iterate env upd st (k + 1) s → env.prob.cost s.x ≤ env.prob.cost v.x ∧ (s.x ≠ v.x → env.prob.cost s.x < env.prob.cost v.x)) ∧
    ∀ δ ≥ 0, ∀ k s, Iterate env upd st k s → (∀ j v, 1 ≤ j → j ≤ k → Iterate env upd st j v → δ < v.primalNorm) →
      env.prob.cost s.x + k * (m * min env.cfg.eta (1 / 2) * δ ^ 2) ≤ env.prob.cost st.x := by
  have hc : 0 < m * min env.cfg.eta (1 / 2) := mul_pos hm (lt_min hs.eta (by norm_num))
  have hfeas := fun k s (h : Iterate env upd st k s) => iterates_feasible hs hA hf hm hH hx h
  have hdec : ∀ k v s, Iterate env upd st k v → Iterate env upd st (k + 1) s → env.prob.cost s.x ≤ env.prob.cost v.x ∧ (s.x ≠ v.x → env.prob.cost s.x < env.prob.cost v.x) := by
    intro k v s hv h
    obtain ⟨H, p, a, hB, h1⟩ := iterates_step hs hA hf hm hH hx hv h
    obtain ⟨h2, -, -, -, h3⟩ := step_decreases hs hA hf hm (hfeas k v hv) hB h1
    have hp0 := mul_nonneg h2.le (mul_nonneg hc.le (dot_self_nonneg p))
    refine ⟨by linarith, fun hne => ?_⟩
    have hp : p ≠ 0 := by
      rintro rfl
      exact hne (by rw [h1.x, smul_zero, add_zero])
    have hpp : 0 < p ⬝ᵥ p := lt_of_le_of_ne (dot_self_nonneg p) fun h0 => hp (dotProduct_self_eq_zero.1 h0.symm)
    linarith [mul_pos h2 (mul_pos hc hpp)]
  have hle : ∀ k s, Iterate env upd st k s → env.prob.cost s.x ≤ env.prob.cost st.x := by
    intro k
    induction k with
    | zero => intro s h; cases h; exact le_rfl
    | succ k ih =>
      intro s h
      obtain ⟨v, hv⟩ := h.pred
      exact (hdec k v s hv h).1.trans (ih v hv)
  refine ⟨?_, hfeas, hdec, fun δ hδ k => ?_⟩
  · obtain ⟨r, h1, k, s, h2, -, h3⟩ := run_stops hs hA hf hm hH hx
    refine ⟨r, h1, ?_⟩
    rcases h3 with ⟨-, rfl⟩ | ⟨-, rfl, -⟩
    · exact ⟨hfeas _ s h2, hle _ s h2⟩
    · exact ⟨hfeas _ _ h2, hle _ _ h2⟩
  · induction k with
    | zero => intro s h _; cases h; rw [Nat.cast_zero, zero_mul, add_zero]
    | succ k ih =>
      intro s h hlong
      obtain ⟨v, hv⟩ := h.pred
      have h0 := ih v hv fun j w h1 h2 => hlong j w h1 (h2.trans (Nat.le_succ k))
      obtain ⟨H, p, a, hB, h1⟩ := iterates_step hs hA hf hm hH hx hv h
      obtain ⟨h2, h2', -, -, h3⟩ := step_decreases hs hA hf hm (hfeas k v hv) hB h1
      have h4 := hlong (k + 1) s (by omega) le_rfl h
      rw [h1.primal] at h4
      have h5 := mul_le_mul_of_nonneg_left (long_step h2 h2' hδ h4).le hc.le
      push_cast
      linarith

end runs

/-! ## Bounds on the variables only -/

section bounds
variable [NeZero n] {prec : Precond ℝ n (0 + 0)} {qps : QPSolver ℝ n (0 + 0)} {eps L m M fmin : ℝ} {env : Env ℝ n 0 0 prec qps}
  {upd : State ℝ n 0 0 prec qps → Option (State ℝ n 0 0 prec qps)} {st : State ℝ n 0 0 prec qps}

theorem noConstraints (prob : Problem ℝ n 0 0) : AffineConstraints prob where
  coherent _ := ⟨fun i => i.elim0, fun i => i.elim0⟩
  affine _ _ := funext fun i => absurd i.2 (by omega)

/-- The distance of the multipliers from those that make the gradient of the Lagrangian vanish. -/
def dualGap (prob : Problem ℝ n 0 0) (x : Fin n → ℝ) (lam : Dual ℝ n 0 0) : Fin n → ℝ := fun i => lam (Sum.inr i) + prob.costGrad x i

/-- The quantity that decreases in every iteration: the excess of the cost, weighted, plus the square of the distance of the multipliers. -/
noncomputable def potential (prob : Problem ℝ n 0 0) (eta L m M fmin : ℝ) (x : Fin n → ℝ) (lam : Dual ℝ n 0 0) : ℝ :=
  (2 * L ^ 2 + 3 * M ^ 2 + 1) / (m * min eta (1 / 2)) * (prob.cost x - fmin) + dualGap prob x lam ⬝ᵥ dualGap prob x lam

theorem bounds_kkt {x0 p : Fin n → ℝ} {H : Matrix (Fin n) (Fin n) ℝ} {y : Dual ℝ n 0 0}
    (h : (formQP env.bd x0 H (env.prob.costGrad x0) (env.prob.jac x0) (env.prob.constr x0)).KKT p y) (i : Fin n) :
    y (Sum.inr i) = -(env.prob.costGrad x0 i + (H *ᵥ p) i) := by
  have h1 := congrFun h.1 i
  unfold QP.lagrangianGradient at h1
  have h2 : ((formQP env.bd x0 H (env.prob.costGrad x0) (env.prob.jac x0) (env.prob.constr x0)).Aᵀ *ᵥ QP.yA y) i = 0 := by
    unfold mulVec dotProduct
    exact Finset.sum_eq_zero fun j _ => absurd j.2 (by omega)
  rw [Pi.add_apply, Pi.add_apply, Pi.add_apply, h2, Pi.zero_apply] at h1
  change (H *ᵥ p) i + env.prob.costGrad x0 i + 0 + y (Sum.inr i) = 0 at h1
  linarith

theorem infNorm_dual (y : Dual ℝ n 0 0) : infNorm y = infNorm fun i => y (Sum.inr i) := by
  refine le_antisymm ((infNorm_le_iff _).2 ⟨infNorm_nonneg _, ?_⟩) ((infNorm_le_iff _).2 ⟨infNorm_nonneg _, fun i => le_infNorm y (Sum.inr i)⟩)
  rintro (i | i)
  · exact absurd i.2 (by omega)
  · exact le_infNorm (fun i => y (Sum.inr i)) i

/-- An iteration decreases the potential by half the squares of the steps of variables and multipliers. -/
theorem potential_decreases (hs : LineSearching eps env) (hf : SmoothCost env L m) (hm : 0 < m) {x0 : Fin n → ℝ} (hx : x0 ∈ feasibleSet env.prob env.bd) {lam0 : Dual ℝ n 0 0}
    {H : Matrix (Fin n) (Fin n) ℝ} (hH : CurvatureBetween m M H) {p : Fin n → ℝ} {a : ℝ} {s : State ℝ n 0 0 prec qps} (h : Step env x0 lam0 H p a s) :
    potential env.prob env.cfg.eta L m M fmin s.x s.lam + 1 / 2 * (a * (p ⬝ᵥ p) + a * ((fun i => (s.lamK - lam0) (Sum.inr i)) ⬝ᵥ fun i => (s.lamK - lam0) (Sum.inr i)))
      ≤ potential env.prob env.cfg.eta L m M fmin x0 lam0 := by
  obtain ⟨h0, h1, -, hsx, hdec⟩ := step_decreases hs (noConstraints env.prob) hf hm hx hH h
  have hc : 0 < m * min env.cfg.eta (1 / 2) := mul_pos hm (lt_min hs.eta (by norm_num))
  set e := dualGap env.prob x0 lam0 with he
  have hd : (fun i => (s.lamK - lam0) (Sum.inr i)) = -e + -(H *ᵥ p) := by
    funext i
    rw [Pi.sub_apply, bounds_kkt h.kkt i]
    show _ = -(lam0 (Sum.inr i) + env.prob.costGrad x0 i) + -(H *ᵥ p) i
    ring
  have he' : dualGap env.prob s.x s.lam = (1 - a) • e + (env.prob.costGrad s.x - env.prob.costGrad x0) - a • (H *ᵥ p) := by
    funext i
    have h2 := congrFun hd i
    simp only [Pi.sub_apply, Pi.add_apply, Pi.neg_apply] at h2
    show s.lam (Sum.inr i) + env.prob.costGrad s.x i = (1 - a) * e i + (env.prob.costGrad s.x i - env.prob.costGrad x0 i) - a * (H *ᵥ p) i
    rw [h.lam]
    show lam0 (Sum.inr i) + a * (s.lamK (Sum.inr i) - lam0 (Sum.inr i)) + env.prob.costGrad s.x i = _
    rw [h2]
    have h3 : e i = lam0 (Sum.inr i) + env.prob.costGrad x0 i := rfl
    rw [h3]; ring
  have hlip := hf.lipschitz x0 hx s.x hsx
  have hxa : s.x - x0 = a • p := by rw [h.x, add_sub_cancel_left]
  rw [hxa] at hlip
  have h2 := multiplier_step h0 h1 he' hlip (hH.2.2 p)
  have h3 := dot_add_le (-e) (-(H *ᵥ p))
  rw [neg_dotProduct_neg, neg_dotProduct_neg] at h3
  have h4 := mul_le_mul_of_nonneg_left (h3.trans (add_le_add le_rfl (mul_le_mul_of_nonneg_left (hH.2.2 p) zero_le_two))) h0.le
  rw [hd]
  unfold potential
  rw [← he]
  have h5 : (2 * L ^ 2 + 3 * M ^ 2 + 1) / (m * min env.cfg.eta (1 / 2)) * (a * (m * min env.cfg.eta (1 / 2) * (p ⬝ᵥ p))) = a * ((2 * L ^ 2 + 3 * M ^ 2 + 1) * (p ⬝ᵥ p)) := by
    rw [show a * (m * min env.cfg.eta (1 / 2) * (p ⬝ᵥ p)) = m * min env.cfg.eta (1 / 2) * (a * (p ⬝ᵥ p)) by ring, ← mul_assoc, div_mul_cancel₀ _ hc.ne']
    ring
  have h6 : 0 ≤ (2 * L ^ 2 + 3 * M ^ 2 + 1) / (m * min env.cfg.eta (1 / 2)) := by positivity
  have h7 := mul_le_mul_of_nonneg_left hdec h6
  rw [mul_add, h5] at h7
  have h8 := mul_nonneg h0.le (dot_self_nonneg p)
  have h9 := mul_nonneg h8 (sq_nonneg M)
  nlinarith

/-- Unless the iteration passes the termination test, the potential decreases by half the square of the tolerances. -/
theorem potential_drop (hs : LineSearching eps env) (hf : SmoothCost env L m) (hm : 0 < m) {x0 : Fin n → ℝ} (hx : x0 ∈ feasibleSet env.prob env.bd) {lam0 : Dual ℝ n 0 0}
    {H : Matrix (Fin n) (Fin n) ℝ} (hH : CurvatureBetween m M H) {p : Fin n → ℝ} {a : ℝ} {s : State ℝ n 0 0 prec qps} (h : Step env x0 lam0 H p a s) {tol : ℝ} (htol : 0 < tol)
    (h1 : tol ≤ env.cfg.epsPrim) (h2 : tol ≤ env.cfg.epsDual) (ht : terminated env s = false) :
    potential env.prob env.cfg.eta L m M fmin s.x s.lam + tol ^ 2 / 2 < potential env.prob env.cfg.eta L m M fmin x0 lam0 := by
  obtain ⟨a0, a1, -, hsx, -⟩ := step_decreases hs (noConstraints env.prob) hf hm hx hH h
  have hp := potential_decreases (fmin := fmin) hs hf hm hx hH h
  have hpp := mul_nonneg a0.le (dot_self_nonneg p)
  have hdd := mul_nonneg a0.le (dot_self_nonneg fun i => (s.lamK - lam0) (Sum.inr i))
  have hviol : s.maxViolation ≤ env.cfg.epsPrim := by
    rw [h.viol, maxViolation_le_iff]
    obtain ⟨-, -, f3⟩ := hsx
    have : 0 ≤ env.cfg.epsPrim := htol.le.trans h1
    exact ⟨this, fun i => i.elim0, fun i => i.elim0, fun i => ⟨by linarith [(f3 i).1], by linarith [(f3 i).2]⟩⟩
  have hor : tol < a * infNorm p ∨ tol < a * infNorm (fun i => (s.lamK - lam0) (Sum.inr i)) := by
    by_contra hno
    rw [not_or, not_lt, not_lt] at hno
    have : terminated env s = true := by
      unfold terminated
      simp only [Bool.and_eq_true, decide_eq_true_eq]
      refine ⟨⟨?_, ?_⟩, hviol⟩
      · rw [h.primal]; exact hno.1.trans h1
      · rw [h.dual, infNorm_dual]; exact hno.2.trans h2
    rw [ht] at this
    exact absurd this (by decide)
  rcases hor with hl | hl
  · have := long_step a0 a1 htol.le hl
    linarith
  · have := long_step a0 a1 htol.le hl
    linarith

/-- **C186.** Let the variables have bounds and no other constraints, the guess lie within the bounds, the gradient of the cost be Lipschitz with constant `L` on the box, the cost be at least
`fmin` there, and the curvature of the QPs be between `m > 0` and `M`. Then `solve` reports `SOLVED` after at most `N` iterations, for every `N` with
`2 V ≤ N tol²`, where `tol` is the smaller tolerance and `V` the potential of the guess; and all along the cost is at most that of the guess. -/
theorem bounds_solved (hs : LineSearching eps env) (hf : SmoothCost env L m) (hm : 0 < m) (hH : HessiansBetween env upd st m M) (hx : st.x ∈ feasibleSet env.prob env.bd)
    (hmin : ∀ x ∈ feasibleSet env.prob env.bd, fmin ≤ env.prob.cost x) (h1 : 0 < env.cfg.epsPrim) (h2 : 0 < env.cfg.epsDual) {N : ℕ} (hN1 : 1 ≤ N)
    (hN : 2 * potential env.prob env.cfg.eta L m M fmin st.x st.lam ≤ N * min env.cfg.epsPrim env.cfg.epsDual ^ 2) (hmax : (N : ℤ) ≤ env.cfg.maxIter) :
    ∃ r, solveWith env upd st = some r ∧ r.status = .SOLVED ∧ r.iter ≤ N ∧ r.x ∈ feasibleSet env.prob env.bd ∧ env.prob.cost r.x ≤ env.prob.cost st.x := by
  set tol := min env.cfg.epsPrim env.cfg.epsDual with htol
  have ht0 : 0 < tol := lt_min h1 h2
  have hA := noConstraints env.prob
  have hc : 0 < m * min env.cfg.eta (1 / 2) := mul_pos hm (lt_min hs.eta (by norm_num))
  have hpos : ∀ x lam, x ∈ feasibleSet env.prob env.bd → 0 ≤ potential env.prob env.cfg.eta L m M fmin x lam := by
    intro x lam hx
    have := hmin x hx
    unfold potential
    have h3 : 0 ≤ env.prob.cost x - fmin := by linarith
    have h4 := dot_self_nonneg (dualGap env.prob x lam)
    positivity
  obtain ⟨⟨r, hr, hrx, hrc⟩, hfeas, -⟩ := affine_run hs hA hf hm hH hx
  have hall : ∀ k s, Iterate env upd st (k + 1) s → potential env.prob env.cfg.eta L m M fmin s.x s.lam + k * (tol ^ 2 / 2) ≤ potential env.prob env.cfg.eta L m M fmin st.x st.lam ∧
      (terminated env s = false → potential env.prob env.cfg.eta L m M fmin s.x s.lam + (k + 1) * (tol ^ 2 / 2) < potential env.prob env.cfg.eta L m M fmin st.x st.lam) := by
    intro k
    induction k with
    | zero =>
      intro s h
      obtain ⟨H, p, a, hB, h3⟩ := iterates_step hs hA hf hm hH hx .guess h
      obtain ⟨a0, a1, -⟩ := step_decreases hs hA hf hm hx hB h3
      have h4 := potential_decreases (fmin := fmin) hs hf hm hx hB h3
      have hpp := mul_nonneg a0.le (dot_self_nonneg p)
      have hdd := mul_nonneg a0.le (dot_self_nonneg fun i => (s.lamK - st.lam) (Sum.inr i))
      refine ⟨by push_cast; linarith, fun ht => ?_⟩
      have := potential_drop (fmin := fmin) hs hf hm hx hB h3 ht0 (min_le_left _ _) (min_le_right _ _) ht
      push_cast; linarith
    | succ k ih =>
      intro s h
      obtain ⟨v, hv⟩ := h.pred
      have htv : terminated env v = false := by
        cases h with
        | next hv' ht hi hp => rw [hv.unique hv']; exact ht
      have h0 := (ih v hv).2 htv
      obtain ⟨H, p, a, hB, h3⟩ := iterates_step hs hA hf hm hH hx hv h
      obtain ⟨a0, a1, -⟩ := step_decreases hs hA hf hm (hfeas _ _ hv) hB h3
      have h4 := potential_decreases (fmin := fmin) hs hf hm (hfeas _ _ hv) hB h3
      have hpp := mul_nonneg a0.le (dot_self_nonneg p)
      have hdd := mul_nonneg a0.le (dot_self_nonneg fun i => (s.lamK - v.lam) (Sum.inr i))
      refine ⟨by push_cast; linarith, fun ht => ?_⟩
      have := potential_drop (fmin := fmin) hs hf hm (hfeas _ _ hv) hB h3 ht0 (min_le_left _ _) (min_le_right _ _) ht
      push_cast; linarith
  have ht2 : 0 < tol ^ 2 := by positivity
  have hlt : ∀ k : ℕ, (k : ℝ) * (tol ^ 2 / 2) < potential env.prob env.cfg.eta L m M fmin st.x st.lam → k < N := by
    intro k hk
    have h3 : (k : ℝ) * tol ^ 2 < N * tol ^ 2 := by linarith
    exact_mod_cast lt_of_mul_lt_mul_right h3 ht2.le
  obtain ⟨r', h3, k, s, h4, h5, h6⟩ := run_stops hs hA hf hm hH hx
  obtain rfl := Option.some.inj (hr.symm.trans h3)
  obtain ⟨g1, g2⟩ := hall k s h4
  have hs0 := hpos s.x s.lam (hfeas _ _ h4)
  rcases h6 with ⟨ht, rfl⟩ | ⟨ht, rfl, h7⟩
  · refine ⟨_, hr, rfl, ?_, hrx, hrc⟩
    show s.iter ≤ N
    rw [h5]
    rcases Nat.eq_zero_or_pos k with rfl | hk
    · exact_mod_cast hN1
    · obtain ⟨v, hv⟩ := h4.pred
      obtain ⟨j, rfl⟩ : ∃ j, k = j + 1 := ⟨k - 1, by omega⟩
      have htv : terminated env v = false := by
        cases h4 with
        | next hv' ht hi hp => rw [hv.unique hv']; exact ht
      have h8 := (hall j v hv).2 htv
      have h9 := hpos v.x v.lam (hfeas _ _ hv)
      have := hlt (j + 1) (by push_cast; linarith)
      exact_mod_cast this
  · exfalso
    have h8 := hlt (k + 1) (by push_cast; linarith [g2 ht])
    omega

end bounds

/-! ## The point returned for strongly convex costs -/

section accurate
variable [NeZero n] {eps L m M mf : ℝ} {env : Env ℝ n me mi prec qps} {upd : State ℝ n me mi prec qps → Option (State ℝ n me mi prec qps)} {st : State ℝ n me mi prec qps}

/-- The line search does not take steps much shorter than needed, unless the step is of the order of the square root of the machine precision. -/
theorem step_size_lower (hs : LineSearching eps env) (hA : AffineConstraints env.prob) (hf : SmoothCost env L m) (hm : 0 < m) (heta : env.cfg.eta < 1) {x0 : Fin n → ℝ}
    (hx : x0 ∈ feasibleSet env.prob env.bd) {lam0 : Dual ℝ n me mi} {H : Matrix (Fin n) (Fin n) ℝ} (hH : CurvatureBetween m M H) {p : Fin n → ℝ} {a : ℝ} {s : State ℝ n me mi prec qps}
    (h : Step env x0 lam0 H p a s) :
    p ⬝ᵥ p ≤ 2 * env.cfg.eta * infNorm s.lamK * eps / ((1 - env.cfg.eta) * m) ∨ a = 1 ∨ env.cfg.tau * ((1 - env.cfg.eta) * m) ≤ a * L := by
  obtain ⟨c, ha⟩ := h.size
  rw [hs.search] at ha
  obtain ⟨k, -, k2, -, k4⟩ := lineSearch_spec eps env.cfg env.prob env.bd (env.prob.costGrad x0) s.lamK x0 p c
  rw [← ha] at k2
  have hem : 0 < (1 - env.cfg.eta) * m := mul_pos (by linarith) hm
  rcases Nat.eq_zero_or_pos k with rfl | hk
  · exact Or.inr (Or.inl (by rw [k2, pow_zero]))
  rw [or_iff_not_imp_left]
  intro hlong
  right
  rw [not_le, div_lt_iff₀ hem] at hlong
  have h1 := k4 (k - 1) (by omega)
  set b := env.cfg.tau ^ (k - 1) with hb
  have hab : a = env.cfg.tau * b := by rw [k2, hb, ← pow_succ']; congr 1; omega
  have hb0 : 0 < b := pow_pos hs.tau _
  have hb1 : b ≤ 1 := pow_le_one₀ hs.tau.le hs.tau1
  have hfull : x0 + p ∈ feasibleSet env.prob env.bd := (hA.feasible_iff x0 p H _).1 ((QP.feasible_iff _ _).2 fun i => (h.kkt.2 i).1)
  have hbx : x0 + b • p ∈ feasibleSet env.prob env.bd := by
    have := (hA.convex (bd := env.bd)).add_smul_sub_mem hx hfull (t := b) ⟨hb0.le, hb1⟩
    rwa [add_sub_cancel_left] at this
  have hv : ∀ z ∈ feasibleSet env.prob env.bd, l1Violation (env.prob.eq z) (env.prob.ineq z) env.bd.lbg env.bd.ubg z env.bd.lbx env.bd.ubx = 0 :=
    fun z hz => (l1Violation_eq_zero_iff _ _ _ _ _ _ _).2 hz
  have hslope : env.prob.costGrad x0 ⬝ᵥ p ≤ -(m * (p ⬝ᵥ p)) := by
    have h1 := slope_le h.kkt
    have e1 : (fun i => env.prob.constr x0 (Fin.castAdd mi i)) = env.prob.eq x0 := funext (hA.coherent x0).1
    have e2 : (fun i => env.prob.constr x0 (Fin.natAdd me i)) = env.prob.ineq x0 := funext (hA.coherent x0).2
    rw [e1, e2, hv x0 hx, mul_zero, sub_zero] at h1
    linarith [hH.2.1 p]
  unfold Armijo merit at h1
  have ex : (fun i => x0 i + b * p i) = x0 + b • p := rfl
  rw [ex, hv _ hbx, hv _ hx, add_zero, not_le] at h1
  have h2 := descent (hA.convex (bd := env.bd)) hf.nonneg hf.gradient hf.lipschitz hx hbx
  rw [add_sub_cancel_left, dotProduct_smul, smul_dotProduct, dotProduct_smul, smul_eq_mul, smul_eq_mul, smul_eq_mul] at h2
  set g := env.prob.costGrad x0 ⬝ᵥ p with hg
  set q := p ⬝ᵥ p with hq
  set μ := infNorm s.lamK with hμ
  -- b * (1 - eta) * (-g) < b * eta * mu * eps + L / 2 * b² q
  have h3 : b * ((1 - env.cfg.eta) * -g - env.cfg.eta * (μ * eps)) < b * (L / 2 * b * q) := by nlinarith
  have h4 := lt_of_mul_lt_mul_left h3 hb0.le
  have h5 : (1 - env.cfg.eta) * (m * q) ≤ (1 - env.cfg.eta) * -g := mul_le_mul_of_nonneg_left (by linarith) (by linarith)
  have h6 : ((1 - env.cfg.eta) * m) * q < b * L * q := by nlinarith
  have h7 := lt_of_mul_lt_mul_right h6 (dot_self_nonneg p)
  rw [hab, mul_assoc]
  exact mul_le_mul_of_nonneg_left h7.le hs.tau.le

theorem minimiser_slope (hA : AffineConstraints env.prob) (hf : SmoothCost env L m) {xs z : Fin n → ℝ} (hx : xs ∈ feasibleSet env.prob env.bd)
    (hmin : ∀ z ∈ feasibleSet env.prob env.bd, env.prob.cost xs ≤ env.prob.cost z) (hz : z ∈ feasibleSet env.prob env.bd) : 0 ≤ env.prob.costGrad xs ⬝ᵥ (z - xs) := by
  have hd := hf.gradient xs hx z hz 0 (left_mem_Icc.2 zero_le_one)
  rw [zero_smul, add_zero] at hd
  by_contra hneg
  rw [not_le] at hneg
  have hsl := hasDerivWithinAt_iff_tendsto_slope.1 hd
  have hev := (hsl.eventually (gt_mem_nhds hneg)).and self_mem_nhdsWithin
  have hne : (nhdsWithin (0 : ℝ) (Icc 0 1 \ {0})).NeBot := by
    have : Icc (0 : ℝ) 1 \ {0} = Ioc 0 1 := by
      ext t
      constructor
      · rintro ⟨⟨h1, h2⟩, h3⟩; exact ⟨lt_of_le_of_ne h1 fun h => h3 h.symm, h2⟩
      · rintro ⟨h1, h2⟩; exact ⟨⟨h1.le, h2⟩, fun h => h1.ne' h⟩
    rw [this]
    exact left_nhdsWithin_Ioc_neBot one_pos
  obtain ⟨t, h1, ⟨h2, h3⟩⟩ := hev.exists
  rw [slope_def_field, sub_zero] at h1
  have ht : 0 < t := lt_of_le_of_ne h2.1 fun h => h3 h.symm
  have h4 := (div_neg_iff.1 h1)
  have h5 := hmin _ ((hA.convex (bd := env.bd)).add_smul_sub_mem hx hz (t := t) h2)
  simp only [zero_smul, add_zero] at h4
  rcases h4 with ⟨-, h4⟩ | ⟨h4, -⟩
  · linarith
  · linarith

/-- The solution of the QP as a variational inequality on the feasible set. -/
theorem step_variational (hA : AffineConstraints env.prob) {x0 p : Fin n → ℝ} {H : Matrix (Fin n) (Fin n) ℝ} {y : Dual ℝ n me mi}
    (h : (formQP env.bd x0 H (env.prob.costGrad x0) (env.prob.jac x0) (env.prob.constr x0)).KKT p y) {z : Fin n → ℝ} (hz : z ∈ feasibleSet env.prob env.bd) :
    0 ≤ (env.prob.costGrad x0 + H *ᵥ p) ⬝ᵥ (z - (x0 + p)) := by
  have h1 := kkt_dot h (z - (x0 + p))
  change (z - (x0 + p)) ⬝ᵥ H *ᵥ p + env.prob.costGrad x0 ⬝ᵥ (z - (x0 + p)) + _ = 0 at h1
  have hfe : (formQP env.bd x0 H (env.prob.costGrad x0) (env.prob.jac x0) (env.prob.constr x0)).Feasible (z - x0) := by
    rw [hA.feasible_iff, add_sub_cancel]; exact hz
  have h2 := QP.normalCone_le h.2 ((QP.feasible_iff _ _).1 hfe)
  have e1 : z - (x0 + p) = z - x0 - p := by abel
  have h3 : ∑ i, (formQP env.bd x0 H (env.prob.costGrad x0) (env.prob.jac x0) (env.prob.constr x0)).rows (z - (x0 + p)) i * y i ≤ 0 := by
    rw [e1, QP.rows_sub]
    rw [dotProduct_comm] at h2
    exact h2
  rw [add_dotProduct, dotProduct_comm (H *ᵥ p)]
  linarith

/-- The distance of `x0 + p` from the minimiser, for a cost with strongly monotone gradient. -/
theorem step_error (hA : AffineConstraints env.prob) (hf : SmoothCost env L m) (hmf : 0 < mf)
    (hmono : ∀ x ∈ feasibleSet env.prob env.bd, ∀ z ∈ feasibleSet env.prob env.bd, mf * ((z - x) ⬝ᵥ (z - x)) ≤ (env.prob.costGrad z - env.prob.costGrad x) ⬝ᵥ (z - x))
    {xs : Fin n → ℝ} (hxs : xs ∈ feasibleSet env.prob env.bd) (hmin : ∀ z ∈ feasibleSet env.prob env.bd, env.prob.cost xs ≤ env.prob.cost z) {x0 : Fin n → ℝ}
    (hx : x0 ∈ feasibleSet env.prob env.bd) {H : Matrix (Fin n) (Fin n) ℝ} (hH : CurvatureBetween m M H) {p : Fin n → ℝ} {y : Dual ℝ n me mi}
    (h : (formQP env.bd x0 H (env.prob.costGrad x0) (env.prob.jac x0) (env.prob.constr x0)).KKT p y) :
    mf ^ 2 * ((x0 + p - xs) ⬝ᵥ (x0 + p - xs)) ≤ (2 * L ^ 2 + 2 * M ^ 2) * (p ⬝ᵥ p) := by
  have hfull : x0 + p ∈ feasibleSet env.prob env.bd := (hA.feasible_iff x0 p H _).1 ((QP.feasible_iff _ _).2 fun i => (h.2 i).1)
  have h1 := step_variational hA h hxs
  have h2 := minimiser_slope hA hf hxs hmin hfull
  have h3 := hmono xs hxs (x0 + p) hfull
  set u := x0 + p - xs with hu
  have e1 : xs - (x0 + p) = -u := by rw [hu]; abel
  rw [e1, dotProduct_neg, add_dotProduct] at h1
  rw [sub_dotProduct (env.prob.costGrad (x0 + p))] at h3
  set w := (env.prob.costGrad (x0 + p) - env.prob.costGrad x0) + -(H *ᵥ p) with hw
  have h4 : mf * (u ⬝ᵥ u) ≤ w ⬝ᵥ u := by
    rw [hw, add_dotProduct, sub_dotProduct (env.prob.costGrad (x0 + p)), neg_dotProduct]
    linarith
  have h5 : w ⬝ᵥ w ≤ (2 * L ^ 2 + 2 * M ^ 2) * (p ⬝ᵥ p) := by
    have a1 := dot_add_le (env.prob.costGrad (x0 + p) - env.prob.costGrad x0) (-(H *ᵥ p))
    have a2 := hf.lipschitz x0 hx (x0 + p) hfull
    rw [add_sub_cancel_left] at a2
    rw [neg_dotProduct_neg] at a1
    have a3 := hH.2.2 p
    rw [hw]
    linarith
  have h6 := cauchy_schwarz w u
  have hu0 := dot_self_nonneg u
  have h7 : (mf * (u ⬝ᵥ u)) ^ 2 ≤ (w ⬝ᵥ u) ^ 2 := pow_le_pow_left₀ (mul_nonneg hmf.le hu0) h4 2
  rcases hu0.eq_or_lt with h0 | h0
  · rw [← h0, mul_zero]
    exact (dot_self_nonneg w).trans h5
  · refine le_trans ?_ h5
    have h8 : (mf ^ 2 * (u ⬝ᵥ u)) * (u ⬝ᵥ u) ≤ (w ⬝ᵥ w) * (u ⬝ᵥ u) := by nlinarith
    exact le_of_mul_le_mul_right h8 h0

/-- **C187.** Let the constraints be affine, the guess feasible, the gradient of the cost Lipschitz (`L`) and strongly monotone (`mf`) on the feasible set with minimiser `xs`, and the curvature of the
QPs between `m` and `M`. If `solve` reports `SOLVED`, the square of the distance of the returned point from `xs` is at most `4 (L² + M²) / mf² + 2` times the larger of
`n (eps_prim max(1, L / (tau (1 - eta) m)))²` and `2 eta ‖λ‖ eps / ((1 - eta) m)`, with `λ` the multipliers of the last QP. -/
theorem affine_accurate (hs : LineSearching eps env) (hA : AffineConstraints env.prob) (hf : SmoothCost env L m) (hm : 0 < m) (hH : HessiansBetween env upd st m M)
    (hx : st.x ∈ feasibleSet env.prob env.bd) (heta : env.cfg.eta < 1) (hmf : 0 < mf)
    (hmono : ∀ x ∈ feasibleSet env.prob env.bd, ∀ z ∈ feasibleSet env.prob env.bd, mf * ((z - x) ⬝ᵥ (z - x)) ≤ (env.prob.costGrad z - env.prob.costGrad x) ⬝ᵥ (z - x))
    {xs : Fin n → ℝ} (hxs : xs ∈ feasibleSet env.prob env.bd) (hmin : ∀ z ∈ feasibleSet env.prob env.bd, env.prob.cost xs ≤ env.prob.cost z) {r : State ℝ n me mi prec qps}
    (hr : solveWith env upd st = some r) (hsol : r.status = .SOLVED) :
    (r.x - xs) ⬝ᵥ (r.x - xs) ≤ (4 * (L ^ 2 + M ^ 2) / mf ^ 2 + 2) *
      max (n * (env.cfg.epsPrim * max 1 (L / (env.cfg.tau * ((1 - env.cfg.eta) * m)))) ^ 2) (2 * env.cfg.eta * infNorm r.lamK * eps / ((1 - env.cfg.eta) * m)) := by
  obtain ⟨k, s, h1, h2⟩ := solveWith_iterate hr
  rcases h2 with ⟨ht, rfl⟩ | ⟨-, rfl⟩
  swap
  · rw [iterates_status hs hA hf hm hH hx k h1] at hsol
    exact absurd hsol (by decide)
  obtain ⟨v, hv⟩ := h1.pred
  have hvx := iterates_feasible hs hA hf hm hH hx hv
  obtain ⟨H, p, a, hB, h3⟩ := iterates_step hs hA hf hm hH hx hv h1
  obtain ⟨a0, a1, -, -, -⟩ := step_decreases hs hA hf hm hvx hB h3
  have h4 := step_error hA hf hmf hmono hxs hmin hvx hB h3.kkt
  have h5 := step_size_lower hs hA hf hm heta hvx hB h3
  unfold terminated at ht
  simp only [Bool.and_eq_true, decide_eq_true_eq] at ht
  have h6 := ht.1.1
  rw [h3.primal] at h6
  have hem : 0 < env.cfg.tau * ((1 - env.cfg.eta) * m) := mul_pos hs.tau (mul_pos (by linarith) hm)
  have hD : p ⬝ᵥ p ≤ max (n * (env.cfg.epsPrim * max 1 (L / (env.cfg.tau * ((1 - env.cfg.eta) * m)))) ^ 2) (2 * env.cfg.eta * infNorm s.lamK * eps / ((1 - env.cfg.eta) * m)) := by
    rcases h5 with h5 | h5
    · exact h5.trans (le_max_right _ _)
    · refine le_trans ?_ (le_max_left _ _)
      have hinf : infNorm p ≤ env.cfg.epsPrim * max 1 (L / (env.cfg.tau * ((1 - env.cfg.eta) * m))) := by
        have he0 : 0 ≤ env.cfg.epsPrim := (mul_nonneg a0.le (infNorm_nonneg p)).trans h6
        rcases h5 with h5 | h5
        · rw [h5, one_mul] at h6
          exact h6.trans (le_mul_of_one_le_right he0 (le_max_left _ _))
        · have h7 : infNorm p ≤ env.cfg.epsPrim * (L / (env.cfg.tau * ((1 - env.cfg.eta) * m))) := by
            rw [← mul_div_assoc, le_div_iff₀ hem]
            calc infNorm p * (env.cfg.tau * ((1 - env.cfg.eta) * m)) ≤ infNorm p * (a * L) := mul_le_mul_of_nonneg_left h5 (infNorm_nonneg p)
              _ = a * infNorm p * L := by ring
              _ ≤ env.cfg.epsPrim * L := mul_le_mul_of_nonneg_right h6 hf.nonneg
          exact h7.trans (mul_le_mul_of_nonneg_left (le_max_right _ _) he0)
      have h8 : p ⬝ᵥ p ≤ ∑ _i : Fin n, (env.cfg.epsPrim * max 1 (L / (env.cfg.tau * ((1 - env.cfg.eta) * m)))) ^ 2 := by
        refine Finset.sum_le_sum fun i _ => ?_
        have h9 := (le_infNorm p i).trans hinf
        have := pow_le_pow_left₀ (abs_nonneg (p i)) h9 2
        rw [sq_abs, sq (p i)] at this
        exact this
      rw [Finset.sum_const, Finset.card_univ, Fintype.card_fin, nsmul_eq_mul] at h8
      exact h8
  have hC : 0 ≤ 4 * (L ^ 2 + M ^ 2) / mf ^ 2 + 2 := by positivity
  refine le_trans ?_ (mul_le_mul_of_nonneg_left hD hC)
  show (s.x - xs) ⬝ᵥ (s.x - xs) ≤ _
  have e1 : s.x - xs = (v.x + p - xs) + (a - 1) • p := by rw [h3.x, sub_smul, one_smul]; abel
  have h7 := dot_add_le (v.x + p - xs) ((a - 1) • p)
  rw [← e1, smul_dotProduct, dotProduct_smul, smul_eq_mul, smul_eq_mul] at h7
  have h8 : (a - 1) * ((a - 1) * (p ⬝ᵥ p)) ≤ p ⬝ᵥ p := by
    have : (a - 1) * (a - 1) ≤ 1 := by nlinarith
    nlinarith [dot_self_nonneg p]
  have h9 : (v.x + p - xs) ⬝ᵥ (v.x + p - xs) ≤ (2 * L ^ 2 + 2 * M ^ 2) * (p ⬝ᵥ p) / mf ^ 2 := by
    rw [le_div_iff₀ (by positivity)]; linarith
  calc (s.x - xs) ⬝ᵥ (s.x - xs) ≤ 2 * ((2 * L ^ 2 + 2 * M ^ 2) * (p ⬝ᵥ p) / mf ^ 2) + 2 * (p ⬝ᵥ p) := by linarith
    _ = (4 * (L ^ 2 + M ^ 2) / mf ^ 2 + 2) * (p ⬝ᵥ p) := by ring

end accurate

/-! ## The two ways of updating the Hessian -/

section updates
variable [NeZero n] {eps m M : ℝ} {env : Env ℝ n me mi prec qps} {st : State ℝ n me mi prec qps}

/-- With the exact linearisation in every iteration it suffices that the (regularised) Hessians at feasible points have bounded curvature. -/
theorem exact_between (hx : st.x ∈ feasibleSet env.prob env.bd) (h : ∀ x ∈ feasibleSet env.prob env.bd, ∀ lam, CurvatureBetween m M (env.regularise (env.prob.lagHess x lam))) :
    HessiansBetween env (exactUpdate env) st m M where
  first := h _ hx _
  next _ v _ hv _ _ := ⟨_, forms_exact v, h _ hv _⟩

/-- With the default updates it suffices that the Hessians seen after the iterations have bounded curvature. -/
theorem bfgs_between {cfg : Settings ℝ} {prob : Problem ℝ n me mi} {bd : Bounds ℝ n mi} (heps : 0 < eps) (hl : LawfulPrecond prec)
    (hpd : ∀ m qp, ∃ r, prec.compute m qp = some r) (hex : ExactQP qps) (hA : AffineConstraints prob) (hm : 0 < m) (h0 : CurvatureBetween m M (prob.lagHess st.x st.lam))
    (h : ∀ k s, Iterate (defaultEnv eps cfg prob bd) (updateLinearisation (defaultEnv eps cfg prob bd)) st (k + 1) s → CurvatureBetween m M s.qp.H) :
    HessiansBetween (defaultEnv eps cfg prob bd) (updateLinearisation (defaultEnv eps cfg prob bd)) st m M where
  first := h0
  next k v hv hx ht hi := by
    obtain ⟨H, h1, h2⟩ := bfgs_keeps_spd heps ((h k v hv).spd hm) v.stepPrev (prob.lagGrad v.x v.lam - v.lagGradient)
    have hF : Forms (defaultEnv eps cfg prob bd) (updateLinearisation (defaultEnv eps cfg prob bd)) v H := by
      refine ⟨{ v with iter := v.iter + 1, lagGradient := prob.lagGrad v.x v.lam, qp := formQP bd v.x H (prob.costGrad v.x) (prob.jac v.x) (prob.constr v.x) }, ?_, rfl, rfl, rfl, rfl, rfl⟩
      show (QuasiNewton.bfgsUpdate eps v.qp.H v.stepPrev (prob.lagGrad v.x v.lam - v.lagGradient)).map _ = _
      rw [h1]; rfl
    obtain ⟨s, p, a, h3, h4, -⟩ := passWith_step hl hpd hex hF h2 (AffineConstraints.solvable (env := (defaultEnv eps cfg prob bd : Env ℝ n me mi prec qps)) hA hx h2.1)
    refine ⟨H, hF, ?_⟩
    have := h (k + 1) s (.next hv ht hi h3)
    rwa [h4.hess] at this

end updates

/-! ## Examples -/

section examples

/-- Minimise `x⁴/4 + x²/2 + x` over `-1 ≤ x ≤ 1`. -/
noncomputable def quartic : Problem ℝ 1 0 0 where
  cost x := x 0 ^ 4 / 4 + x 0 ^ 2 / 2 + x 0
  eq _ := Fin.elim0
  ineq _ := Fin.elim0
  costGrad x := fun _ => x 0 ^ 3 + x 0 + 1
  constr _ := Fin.elim0
  jac _ := fun i => i.elim0
  lagGrad x l := fun _ => x 0 ^ 3 + x 0 + 1 + l (Sum.inr 0)
  lagHess x _ := Matrix.of fun _ _ => 3 * x 0 ^ 2 + 1

def unitBounds : Bounds ℝ 1 0 := ⟨fun _ => -1, fun _ => 1, Fin.elim0, Fin.elim0⟩

theorem quartic_box {x : Fin 1 → ℝ} : x ∈ feasibleSet quartic unitBounds ↔ -1 ≤ x 0 ∧ x 0 ≤ 1 := by
  constructor
  · rintro ⟨-, -, h⟩; exact h 0
  · exact fun h => ⟨fun i => i.elim0, fun i => i.elim0, fun i => by rw [Subsingleton.elim i 0]; exact h⟩

/-- The settings of the example: the defaults with a larger iteration limit. -/
noncomputable def manyIterations (N : ℤ) : Settings ℝ := { Settings.default with maxIter := N }

theorem quartic_smooth {prec : Precond ℝ 1 (0 + 0)} {qps : QPSolver ℝ 1 (0 + 0)} (eps : ℝ) (N : ℤ) :
    SmoothCost (defaultEnv eps (manyIterations N) quartic unitBounds : Env ℝ 1 0 0 prec qps) 4 1 where
  gradient := by
    intro x _ y _ t _
    have h1 : HasDerivAt (fun s : ℝ => x 0 + s * (y 0 - x 0)) (1 * (y 0 - x 0)) t := ((hasDerivAt_id t).mul_const _).const_add _
    have h2 := (((h1.pow 4).div_const 4).add ((h1.pow 2).div_const 2)).add h1
    refine (h2.congr_deriv ?_).hasDerivWithinAt
    show _ = ∑ i : Fin 1, ((x 0 + t * (y 0 - x 0)) ^ 3 + (x 0 + t * (y 0 - x 0)) + 1) * (y i - x i)
    rw [Fin.sum_univ_one]
    push_cast
    ring
  lipschitz := by
    intro x hx y hy
    rw [show (defaultEnv eps (manyIterations N) quartic unitBounds : Env ℝ 1 0 0 prec qps).prob = quartic from rfl,
      show (defaultEnv eps (manyIterations N) quartic unitBounds : Env ℝ 1 0 0 prec qps).bd = unitBounds from rfl, quartic_box] at hx hy
    show ∑ i : Fin 1, ((y 0 ^ 3 + y 0 + 1) - (x 0 ^ 3 + x 0 + 1)) * ((y 0 ^ 3 + y 0 + 1) - (x 0 ^ 3 + x 0 + 1)) ≤ 4 ^ 2 * ∑ i : Fin 1, (y i - x i) * (y i - x i)
    rw [Fin.sum_univ_one, Fin.sum_univ_one]
    generalize x 0 = a at *
    generalize y 0 = b at *
    have e : (b ^ 3 + b + 1) - (a ^ 3 + a + 1) = (b - a) * (b ^ 2 + a * b + a ^ 2 + 1) := by ring
    have h0 : 0 ≤ b ^ 2 + a * b + a ^ 2 + 1 := by nlinarith [sq_nonneg (a + b)]
    have h1 : b ^ 2 + a * b + a ^ 2 + 1 ≤ 4 := by nlinarith [mul_nonneg (sub_nonneg.2 hx.1) (sub_nonneg.2 hx.2), mul_nonneg (sub_nonneg.2 hy.1) (sub_nonneg.2 hy.2), sq_nonneg (a - b)]
    have h2 : (b ^ 2 + a * b + a ^ 2 + 1) ^ 2 ≤ 4 ^ 2 := pow_le_pow_left₀ h0 h1 2
    rw [e]
    nlinarith [mul_le_mul_of_nonneg_left h2 (mul_self_nonneg (b - a))]
  nonneg := by norm_num
  smallest := by
    show ((1 / 2 : ℝ)) ^ ((100 : ℤ) - 1).toNat * 4 ≤ 1
    have : ((100 : ℤ) - 1).toNat = 2 + 97 := rfl
    rw [this, pow_add]
    have : ((1 / 2 : ℝ)) ^ 97 ≤ 1 := pow_le_one₀ (by norm_num) (by norm_num)
    nlinarith

theorem quartic_curvature {x : Fin 1 → ℝ} (hx : x ∈ feasibleSet quartic unitBounds) (lam) : CurvatureBetween 1 4 (quartic.lagHess x lam) := by
  rw [quartic_box] at hx
  have hq : x 0 ^ 2 ≤ 1 := by nlinarith [mul_nonneg (sub_nonneg.2 hx.1) (sub_nonneg.2 hx.2)]
  have hmul : ∀ v : Fin 1 → ℝ, quartic.lagHess x lam *ᵥ v = fun _ => (3 * x 0 ^ 2 + 1) * v 0 := by
    intro v; funext i
    show ∑ j : Fin 1, (3 * x 0 ^ 2 + 1) * v j = _
    rw [Fin.sum_univ_one]
  refine ⟨rfl, fun v => ?_, fun v => ?_⟩
  · rw [hmul]
    show 1 * ∑ i : Fin 1, v i * v i ≤ ∑ i : Fin 1, v i * ((3 * x 0 ^ 2 + 1) * v 0)
    rw [Fin.sum_univ_one, Fin.sum_univ_one]
    nlinarith [mul_nonneg (sq_nonneg (x 0)) (mul_self_nonneg (v 0))]
  · rw [hmul]
    show ∑ i : Fin 1, (3 * x 0 ^ 2 + 1) * v 0 * ((3 * x 0 ^ 2 + 1) * v 0) ≤ 4 ^ 2 * ∑ i : Fin 1, v i * v i
    rw [Fin.sum_univ_one, Fin.sum_univ_one]
    have h2 : (3 * x 0 ^ 2 + 1) ^ 2 ≤ 4 ^ 2 := pow_le_pow_left₀ (by positivity) (by linarith) 2
    nlinarith [mul_le_mul_of_nonneg_right h2 (mul_self_nonneg (v 0))]

theorem quartic_searching {qps : QPSolver ℝ 1 (0 + 0)} (hex : ExactQP qps) {eps : ℝ} (heps : 0 ≤ eps) (N : ℤ) :
    LineSearching eps (defaultEnv eps (manyIterations N) quartic unitBounds : Env ℝ 1 0 0 (identityPrecond ℝ 1 (0 + 0)) qps) where
  precond := identity_lawful _
  computes _ _ := ⟨_, rfl⟩
  qp := hex
  search := rfl
  eps := heps
  tau := by show (0 : ℝ) < 1 / 2; norm_num
  tau1 := by show (1 : ℝ) / 2 ≤ 1; norm_num
  eta := by show (0 : ℝ) < 1 / 4; norm_num

/-- C186: with the exact linearisation in every iteration the example is solved from the guess `0`, to within the default tolerances. -/
example {qps : QPSolver ℝ 1 (0 + 0)} (hex : ExactQP qps) {eps : ℝ} (heps : 0 ≤ eps) (st : State ℝ 1 0 0 (identityPrecond ℝ 1 (0 + 0)) qps) (hx : st.x = 0) (hl : st.lam = 0) :
    ∃ r, solveWith (defaultEnv eps (manyIterations 650000000) quartic unitBounds) (exactUpdate (defaultEnv eps (manyIterations 650000000) quartic unitBounds)) st = some r ∧
      r.status = .SOLVED := by
  have hbox : st.x ∈ feasibleSet quartic unitBounds := by rw [hx, quartic_box]; constructor <;> norm_num
  have hmain := bounds_solved (M := 4) (fmin := -1) (N := 650000000) (quartic_searching hex heps 650000000) (quartic_smooth eps 650000000) one_pos
    (exact_between hbox fun x hx lam => quartic_curvature hx lam) hbox ?_ (by show (0 : ℝ) < 1 / 1000; norm_num) (by show (0 : ℝ) < 1 / 1000; norm_num) (by norm_num) ?_ (by norm_num [defaultEnv, manyIterations])
  · obtain ⟨r, h1, h2, -⟩ := hmain
    exact ⟨r, h1, h2⟩
  · intro x hx
    rw [show (defaultEnv eps (manyIterations 650000000) quartic unitBounds : Env ℝ 1 0 0 (identityPrecond ℝ 1 (0 + 0)) qps).bd = unitBounds from rfl] at hx
    have := quartic_box.1 hx
    show -1 ≤ x 0 ^ 4 / 4 + x 0 ^ 2 / 2 + x 0
    have h4 : 0 ≤ x 0 ^ 4 := by positivity
    nlinarith [sq_nonneg (x 0 + 1)]
  · show 2 * potential quartic (1 / 4) 4 1 4 (-1) st.x st.lam ≤ ((650000000 : ℕ) : ℝ) * min (1 / 1000) (1 / 1000) ^ 2
    have hg : dualGap quartic st.x st.lam = fun _ => 1 := by
      funext i
      show st.lam (Sum.inr i) + (st.x 0 ^ 3 + st.x 0 + 1) = 1
      rw [hx, hl]; norm_num
    have hc : quartic.cost st.x = 0 := by
      show st.x 0 ^ 4 / 4 + st.x 0 ^ 2 / 2 + st.x 0 = 0
      rw [hx]; norm_num
    unfold potential
    rw [hg, hc, min_eq_left (show (1 / 4 : ℝ) ≤ 1 / 2 by norm_num), min_self]
    simp only [dotProduct, Fin.sum_univ_one]
    norm_num

/-- C187: whenever the example is reported solved, the returned point is near the minimiser. -/
example {qps : QPSolver ℝ 1 (0 + 0)} (hex : ExactQP qps) {eps : ℝ} (heps : 0 ≤ eps) (N : ℤ) (st : State ℝ 1 0 0 (identityPrecond ℝ 1 (0 + 0)) qps) (hx : st.x ∈ feasibleSet quartic unitBounds)
    {xs : Fin 1 → ℝ} (hxs : xs ∈ feasibleSet quartic unitBounds) (hmin : ∀ z ∈ feasibleSet quartic unitBounds, quartic.cost xs ≤ quartic.cost z) {r}
    (hr : solveWith (defaultEnv eps (manyIterations N) quartic unitBounds) (exactUpdate (defaultEnv eps (manyIterations N) quartic unitBounds)) st = some r) (hs : r.status = .SOLVED) :
    (r.x 0 - xs 0) ^ 2 ≤ 130 * max ((4 / 375) ^ 2) (2 / 3 * infNorm r.lamK * eps) := by
  have h := affine_accurate (mf := 1) (M := 4) (quartic_searching hex heps N) (noConstraints quartic) (quartic_smooth eps N) one_pos (exact_between hx fun x hx lam => quartic_curvature hx lam) hx
    (by show (1 : ℝ) / 4 < 1; norm_num) one_pos ?_ hxs hmin hr hs
  · have e1 : (r.x - xs) ⬝ᵥ (r.x - xs) = (r.x 0 - xs 0) ^ 2 := by
      show ∑ i : Fin 1, (r.x i - xs i) * (r.x i - xs i) = _
      rw [Fin.sum_univ_one]; ring
    rw [e1] at h
    refine h.trans ?_
    change (4 * (4 ^ 2 + 4 ^ 2) / 1 ^ 2 + 2) * max (((1 : ℕ) : ℝ) * ((1 / 1000) * max 1 (4 / (1 / 2 * ((1 - 1 / 4) * 1)))) ^ 2) (2 * (1 / 4) * infNorm r.lamK * eps / ((1 - 1 / 4) * 1)) ≤ _
    rw [max_eq_right (show (1 : ℝ) ≤ 4 / (1 / 2 * ((1 - 1 / 4) * 1)) by norm_num)]
    have e2 : 2 * (1 / 4) * infNorm r.lamK * eps / ((1 - 1 / 4) * 1) = 2 / 3 * infNorm r.lamK * eps := by ring
    have e3 : ((1 : ℕ) : ℝ) * ((1 / 1000) * (4 / (1 / 2 * ((1 - 1 / 4) * 1)))) ^ 2 = (4 / 375) ^ 2 := by norm_num
    rw [e2, e3]
    norm_num
  · intro x _ z _
    show 1 * ∑ i : Fin 1, (z i - x i) * (z i - x i) ≤ ∑ i : Fin 1, ((z 0 ^ 3 + z 0 + 1) - (x 0 ^ 3 + x 0 + 1)) * (z i - x i)
    rw [Fin.sum_univ_one, Fin.sum_univ_one]
    have e : ((z 0 ^ 3 + z 0 + 1) - (x 0 ^ 3 + x 0 + 1)) * (z 0 - x 0) = (z 0 - x 0) ^ 2 * (z 0 ^ 2 + x 0 * z 0 + x 0 ^ 2) + (z 0 - x 0) * (z 0 - x 0) := by ring
    have h0 : 0 ≤ z 0 ^ 2 + x 0 * z 0 + x 0 ^ 2 := by nlinarith [sq_nonneg (x 0 + z 0)]
    rw [e]
    nlinarith [mul_nonneg (sq_nonneg (z 0 - x 0)) h0]

/-- Minimise `x₀⁴/4 + x₀²/2 + x₁²/2` subject to `x₀ + x₁ = 1` and `-1 ≤ x ≤ 1`. -/
noncomputable def planar : Problem ℝ 2 1 0 where
  cost x := x 0 ^ 4 / 4 + x 0 ^ 2 / 2 + x 1 ^ 2 / 2
  eq x := fun _ => x 0 + x 1 - 1
  ineq _ := Fin.elim0
  costGrad x := ![x 0 ^ 3 + x 0, x 1]
  constr x := fun _ => x 0 + x 1 - 1
  jac _ := fun _ _ => 1
  lagGrad x l := ![x 0 ^ 3 + x 0 + l (Sum.inl 0) + l (Sum.inr 0), x 1 + l (Sum.inl 0) + l (Sum.inr 1)]
  lagHess x _ := !![3 * x 0 ^ 2 + 1, 0; 0, 1]

def planarBounds : Bounds ℝ 2 0 := ⟨fun _ => -1, fun _ => 1, Fin.elim0, Fin.elim0⟩

theorem planar_affine : AffineConstraints planar where
  coherent x := ⟨fun _ => rfl, fun i => i.elim0⟩
  affine x p := by
    funext i
    show x 0 + p 0 + (x 1 + p 1) - 1 = x 0 + x 1 - 1 + ∑ j : Fin 2, 1 * p j
    rw [Fin.sum_univ_two]; ring

theorem planar_smooth {prec : Precond ℝ 2 (1 + 0)} {qps : QPSolver ℝ 2 (1 + 0)} (eps : ℝ) (N : ℤ) :
    SmoothCost (defaultEnv eps (manyIterations N) planar planarBounds : Env ℝ 2 1 0 prec qps) 4 1 where
  gradient := by
    intro x _ y _ t _
    have h1 : ∀ i : Fin 2, HasDerivAt (fun s : ℝ => x i + s * (y i - x i)) (1 * (y i - x i)) t := fun i => ((hasDerivAt_id t).mul_const _).const_add _
    have h2 := ((((h1 0).pow 4).div_const 4).add (((h1 0).pow 2).div_const 2)).add (((h1 1).pow 2).div_const 2)
    refine (h2.congr_deriv ?_).hasDerivWithinAt
    rw [dotProduct, Fin.sum_univ_two]
    show _ = ((x 0 + t * (y 0 - x 0)) ^ 3 + (x 0 + t * (y 0 - x 0))) * (y 0 - x 0) + (x 1 + t * (y 1 - x 1)) * (y 1 - x 1)
    push_cast
    ring
  lipschitz := by
    rintro x ⟨-, -, hx⟩ y ⟨-, -, hy⟩
    obtain ⟨hx1, hx2⟩ : -1 ≤ x 0 ∧ x 0 ≤ 1 := hx 0
    obtain ⟨hy1, hy2⟩ : -1 ≤ y 0 ∧ y 0 ≤ 1 := hy 0
    rw [dotProduct, dotProduct, Fin.sum_univ_two, Fin.sum_univ_two]
    show ((y 0 ^ 3 + y 0) - (x 0 ^ 3 + x 0)) * ((y 0 ^ 3 + y 0) - (x 0 ^ 3 + x 0)) + (y 1 - x 1) * (y 1 - x 1) ≤ 4 ^ 2 * ((y 0 - x 0) * (y 0 - x 0) + (y 1 - x 1) * (y 1 - x 1))
    generalize x 0 = a at *
    generalize y 0 = b at *
    have e : (b ^ 3 + b) - (a ^ 3 + a) = (b - a) * (b ^ 2 + a * b + a ^ 2 + 1) := by ring
    have h0 : 0 ≤ b ^ 2 + a * b + a ^ 2 + 1 := by nlinarith [sq_nonneg (a + b)]
    have h1 : b ^ 2 + a * b + a ^ 2 + 1 ≤ 4 := by nlinarith [mul_nonneg (sub_nonneg.2 hx1) (sub_nonneg.2 hx2), mul_nonneg (sub_nonneg.2 hy1) (sub_nonneg.2 hy2), sq_nonneg (a - b)]
    have h2 : (b ^ 2 + a * b + a ^ 2 + 1) ^ 2 ≤ 4 ^ 2 := pow_le_pow_left₀ h0 h1 2
    rw [e]
    nlinarith [mul_le_mul_of_nonneg_left h2 (mul_self_nonneg (b - a)), mul_self_nonneg (y 1 - x 1)]
  nonneg := by norm_num
  smallest := by
    show ((1 / 2 : ℝ)) ^ ((100 : ℤ) - 1).toNat * 4 ≤ 1
    have : ((100 : ℤ) - 1).toNat = 2 + 97 := rfl
    rw [this, pow_add]
    have : ((1 / 2 : ℝ)) ^ 97 ≤ 1 := pow_le_one₀ (by norm_num) (by norm_num)
    nlinarith

theorem planar_curvature {x : Fin 2 → ℝ} (hx : x ∈ feasibleSet planar planarBounds) (lam) : CurvatureBetween 1 4 (planar.lagHess x lam) := by
  obtain ⟨-, -, hx⟩ := hx
  obtain ⟨hx1, hx2⟩ : -1 ≤ x 0 ∧ x 0 ≤ 1 := hx 0
  have hq : x 0 ^ 2 ≤ 1 := by nlinarith [mul_nonneg (sub_nonneg.2 hx1) (sub_nonneg.2 hx2)]
  have hmul : ∀ v : Fin 2 → ℝ, planar.lagHess x lam *ᵥ v = ![(3 * x 0 ^ 2 + 1) * v 0, v 1] := by
    intro v; funext i
    fin_cases i <;> simp [planar, mulVec, dotProduct, Fin.sum_univ_two]
  refine ⟨?_, fun v => ?_, fun v => ?_⟩
  · funext i j
    fin_cases i <;> fin_cases j <;> rfl
  · rw [hmul, dotProduct, dotProduct, Fin.sum_univ_two, Fin.sum_univ_two]
    show 1 * (v 0 * v 0 + v 1 * v 1) ≤ v 0 * ((3 * x 0 ^ 2 + 1) * v 0) + v 1 * v 1
    nlinarith [mul_nonneg (sq_nonneg (x 0)) (mul_self_nonneg (v 0))]
  · rw [hmul, dotProduct, dotProduct, Fin.sum_univ_two, Fin.sum_univ_two]
    show (3 * x 0 ^ 2 + 1) * v 0 * ((3 * x 0 ^ 2 + 1) * v 0) + v 1 * v 1 ≤ 4 ^ 2 * (v 0 * v 0 + v 1 * v 1)
    have h2 : (3 * x 0 ^ 2 + 1) ^ 2 ≤ 4 ^ 2 := pow_le_pow_left₀ (by positivity) (by linarith) 2
    nlinarith [mul_le_mul_of_nonneg_right h2 (mul_self_nonneg (v 0)), mul_self_nonneg (v 1)]

/-- C185: from the guess `(1, 0)` all iterates satisfy the constraints and the cost is never above `3/4`. -/
example {qps : QPSolver ℝ 2 (1 + 0)} (hex : ExactQP qps) {eps : ℝ} (heps : 0 ≤ eps) (N : ℤ) (st : State ℝ 2 1 0 (identityPrecond ℝ 2 (1 + 0)) qps) (hx : st.x = ![1, 0]) :
    ∃ r, solveWith (defaultEnv eps (manyIterations N) planar planarBounds) (exactUpdate (defaultEnv eps (manyIterations N) planar planarBounds)) st = some r ∧
      r.x 0 + r.x 1 = 1 ∧ planar.cost r.x ≤ 3 / 4 := by
  have hf : st.x ∈ feasibleSet planar planarBounds := by
    rw [hx]
    refine ⟨fun _ => ?_, fun i => i.elim0, fun i => ?_⟩
    · show (1 : ℝ) + 0 - 1 = 0; norm_num
    · fin_cases i <;> constructor <;> simp [planarBounds]
  have hs : LineSearching eps (defaultEnv eps (manyIterations N) planar planarBounds : Env ℝ 2 1 0 (identityPrecond ℝ 2 (1 + 0)) qps) :=
    ⟨identity_lawful _, fun _ _ => ⟨_, rfl⟩, hex, rfl, heps, by show (0 : ℝ) < 1 / 2; norm_num, by show (1 : ℝ) / 2 ≤ 1; norm_num, by show (0 : ℝ) < 1 / 4; norm_num⟩
  obtain ⟨⟨r, h1, h2, h3⟩, -⟩ := affine_run hs planar_affine (planar_smooth eps N) one_pos (exact_between hf fun x hx lam => planar_curvature hx lam) hf
  refine ⟨r, h1, ?_, h3.trans ?_⟩
  · have : r.x 0 + r.x 1 - 1 = 0 := h2.1 0
    linarith
  · show st.x 0 ^ 4 / 4 + st.x 0 ^ 2 / 2 + st.x 1 ^ 2 / 2 ≤ 3 / 4
    rw [hx]
    norm_num

end examples

end PolyMPC.Sqp
