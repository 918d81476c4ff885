import Verif.Props.SqpTheory

/-!
# SQP on quadratic programs (C163)

If the problem given to the solver is itself a strictly convex quadratic program and the solver takes the exact Hessian in the first iteration, as it does by default,
the first step leads to the solution.
-/

namespace PolyMPC.Sqp
open Matrix PolyMPC.Spec PolyMPC.QuasiNewton
set_option linter.unusedSectionVars false

universe u
variable {K : Type u} [Field K] [LinearOrder K] [IsStrictOrderedRing K] {n me mi : ℕ}
variable {prec : Precond K n (me + mi)} {qps : QPSolver K n (me + mi)}

/-- The callbacks of `prob` are those of: minimise `½ xᵀQx + qᵀx + c` subject to `(A x + b)_E = 0` and bounds on `(A x + b)_I` and `x`. -/
structure IsQP (prob : Problem K n me mi) (Q : Matrix (Fin n) (Fin n) K) (q : Fin n → K) (c : K) (A : Matrix (Fin (me + mi)) (Fin n) K)
    (b : Fin (me + mi) → K) : Prop where
  cost : ∀ x, prob.cost x = 1 / 2 * (x ⬝ᵥ Q *ᵥ x) + q ⬝ᵥ x + c
  grad : ∀ x, prob.costGrad x = Q *ᵥ x + q
  eq : ∀ x i, prob.eq x i = (A *ᵥ x + b) (Fin.castAdd mi i)
  ineq : ∀ x i, prob.ineq x i = (A *ᵥ x + b) (Fin.natAdd me i)
  constr : ∀ x, prob.constr x = A *ᵥ x + b
  jac : ∀ x, prob.jac x = A
  hess : ∀ x y, prob.lagHess x y = Q

variable {prob : Problem K n me mi} {Q : Matrix (Fin n) (Fin n) K} {q : Fin n → K} {c : K} {A : Matrix (Fin (me + mi)) (Fin n) K} {b : Fin (me + mi) → K}
  {bd : Bounds K n mi}

theorem IsQP.coherent (h : IsQP prob Q q c A b) : Coherent prob := fun x =>
  ⟨fun i => by rw [h.constr, h.eq], fun i => by rw [h.constr, h.ineq]⟩

/-- The QP formed anywhere has the solutions of the problem, as steps from there. -/
theorem IsQP.kkt_iff (h : IsQP prob Q q c A b) (x p : Fin n → K) (y : Dual K n me mi) :
    (formQP bd x Q (prob.costGrad x) (prob.jac x) (prob.constr x)).KKT p y ↔ Stationary prob bd (x + p) y := by
  rw [← zero_step_iff_stationary h.coherent bd (x + p) Q y]
  unfold QP.KKT
  refine and_congr ?_ ?_
  · have : (formQP bd x Q (prob.costGrad x) (prob.jac x) (prob.constr x)).lagrangianGradient p y =
        (formQP bd (x + p) Q (prob.costGrad (x + p)) (prob.jac (x + p)) (prob.constr (x + p))).lagrangianGradient 0 y := by
      unfold QP.lagrangianGradient formQP
      dsimp only
      rw [h.grad, h.grad, h.jac, h.jac, mulVec_zero, mulVec_add]
      abel
    rw [this]
  · unfold QP.InNormalCone
    refine forall_congr' fun i => ?_
    obtain i | i := i
    · have e0 : (formQP bd (x + p) Q (prob.costGrad (x + p)) (prob.jac (x + p)) (prob.constr (x + p))).rows 0 (Sum.inl i) = 0 := by
        show ((prob.jac (x + p)) *ᵥ (0 : Fin n → K)) i = 0
        rw [mulVec_zero]; rfl
      have e1 : (formQP bd x Q (prob.costGrad x) (prob.jac x) (prob.constr x)).rows p (Sum.inl i) = (A *ᵥ p) i := by
        show ((prob.jac x) *ᵥ p) i = _
        rw [h.jac]
      have ec : prob.constr (x + p) = fun j => prob.constr x j + (A *ᵥ p) j := by
        funext j
        rw [h.constr, h.constr, mulVec_add]
        show (A *ᵥ x) j + (A *ᵥ p) j + b j = (A *ᵥ x) j + b j + (A *ᵥ p) j
        ring
      rw [e0, e1]
      induction i using Fin.addCases with
      | left i =>
        simp only [QP.lower, QP.upper, Sum.elim_inl, formQP, Fin.addCases_left, ec]
        constructor <;> rintro ⟨⟨a1, a2⟩, a3, a4⟩ <;>
          exact ⟨⟨by linarith, by linarith⟩, fun hy => by linarith [a3 hy], fun hy => by linarith [a4 hy]⟩
      | right i =>
        simp only [QP.lower, QP.upper, Sum.elim_inl, formQP, Fin.addCases_right, ec]
        constructor <;> rintro ⟨⟨a1, a2⟩, a3, a4⟩ <;>
          exact ⟨⟨by linarith, by linarith⟩, fun hy => by linarith [a3 hy], fun hy => by linarith [a4 hy]⟩
    · simp only [QP.lower, QP.upper, QP.rows, Sum.elim_inr, formQP, Pi.add_apply, Pi.zero_apply]
      constructor <;> rintro ⟨⟨a1, a2⟩, a3, a4⟩ <;>
        exact ⟨⟨by linarith, by linarith⟩, fun hy => by linarith [a3 hy], fun hy => by linarith [a4 hy]⟩

theorem quad_expand (hQ : Qᵀ = Q) (x p : Fin n → K) :
    (x + p) ⬝ᵥ Q *ᵥ (x + p) = x ⬝ᵥ Q *ᵥ x + 2 * ((Q *ᵥ x) ⬝ᵥ p) + p ⬝ᵥ Q *ᵥ p := by
  have hs : x ⬝ᵥ Q *ᵥ p = (Q *ᵥ x) ⬝ᵥ p := by
    rw [dotProduct_mulVec, ← mulVec_transpose, hQ]
  rw [mulVec_add, dotProduct_add, add_dotProduct, add_dotProduct, hs, dotProduct_comm p (Q *ᵥ x)]
  ring

theorem IsQP.cost_add (h : IsQP prob Q q c A b) (hQ : Qᵀ = Q) (x p : Fin n → K) :
    prob.cost (x + p) = prob.cost x + prob.costGrad x ⬝ᵥ p + 1 / 2 * (p ⬝ᵥ Q *ᵥ p) := by
  rw [h.cost, h.cost, h.grad, quad_expand hQ, dotProduct_add, add_dotProduct]
  ring

/-- **C163.** A stationary point minimises the cost among all feasible points. -/
theorem IsQP.minimises (h : IsQP prob Q q c A b) (hQ : SPD Q) {xs : Fin n → K} {ys : Dual K n me mi} (hs : Stationary prob bd xs ys) {z : Fin n → K}
    (hz : NlpFeasible (prob.eq z) (prob.ineq z) bd.lbg bd.ubg z bd.lbx bd.ubx) : prob.cost xs ≤ prob.cost z := by
  obtain ⟨d, rfl⟩ : ∃ d, z = xs + d := ⟨z - xs, by abel⟩
  rw [h.cost_add hQ.1]
  have hk := (zero_step_iff_stationary h.coherent bd xs Q ys).2 hs
  have h1 := kkt_dot hk d
  change d ⬝ᵥ Q *ᵥ (0 : Fin n → K) + prob.costGrad xs ⬝ᵥ d + _ = 0 at h1
  rw [mulVec_zero, dotProduct_zero, zero_add] at h1
  have hpos : 0 ≤ d ⬝ᵥ Q *ᵥ d := by
    by_cases hd : d = 0
    · rw [hd, mulVec_zero, dotProduct_zero]
    · exact (hQ.2 d hd).le
  suffices hsum : ∑ i, (formQP bd xs Q (prob.costGrad xs) (prob.jac xs) (prob.constr xs)).rows d i * ys i ≤ 0 by linarith
  refine Finset.sum_nonpos fun i _ => ?_
  obtain ⟨⟨-, -⟩, a3, a4⟩ := hk.2 i
  obtain ⟨f1, f2, f3⟩ := hz
  have hb : (formQP bd xs Q (prob.costGrad xs) (prob.jac xs) (prob.constr xs)).lower i ≤ (formQP bd xs Q (prob.costGrad xs) (prob.jac xs) (prob.constr xs)).rows d i ∧
      (formQP bd xs Q (prob.costGrad xs) (prob.jac xs) (prob.constr xs)).rows d i ≤ (formQP bd xs Q (prob.costGrad xs) (prob.jac xs) (prob.constr xs)).upper i := by
    obtain i | i := i
    · have e1 : (formQP bd xs Q (prob.costGrad xs) (prob.jac xs) (prob.constr xs)).rows d (Sum.inl i) = (A *ᵥ d) i := by
        show ((prob.jac xs) *ᵥ d) i = _
        rw [h.jac]
      have ec : ∀ j, (A *ᵥ (xs + d) + b) j = prob.constr xs j + (A *ᵥ d) j := by
        intro j
        rw [h.constr, mulVec_add]
        show (A *ᵥ xs) j + (A *ᵥ d) j + b j = (A *ᵥ xs) j + b j + (A *ᵥ d) j
        ring
      rw [e1]
      induction i using Fin.addCases with
      | left i =>
        have := f1 i
        rw [h.eq, ec] at this
        simp only [QP.lower, QP.upper, Sum.elim_inl, formQP, Fin.addCases_left]
        constructor <;> linarith
      | right i =>
        have := f2 i
        rw [h.ineq, ec] at this
        simp only [QP.lower, QP.upper, Sum.elim_inl, formQP, Fin.addCases_right]
        constructor <;> linarith
    · have := f3 i
      simp only [QP.lower, QP.upper, QP.rows, Sum.elim_inr, formQP, Pi.add_apply] at this ⊢
      constructor <;> linarith
  have e0 : (formQP bd xs Q (prob.costGrad xs) (prob.jac xs) (prob.constr xs)).rows 0 i = 0 := by
    obtain i | i := i
    · show ((prob.jac xs) *ᵥ (0 : Fin n → K)) i = 0
      rw [mulVec_zero]; rfl
    · rfl
  rw [e0] at a3 a4
  rcases lt_trichotomy (ys i) 0 with hy | hy | hy
  · rw [← a4 hy] at hb
    exact mul_nonpos_of_nonneg_of_nonpos hb.1 hy.le
  · rw [hy, mul_zero]
  · rw [← a3 hy] at hb
    exact mul_nonpos_of_nonpos_of_nonneg hb.2 hy.le

theorem norm_zero' {ι : Type*} [Fintype ι] : infNorm (0 : ι → K) = 0 :=
  le_antisymm ((infNorm_le_iff _).2 ⟨le_rfl, fun i => by rw [Pi.zero_apply, abs_zero]⟩) (infNorm_nonneg _)

/-- The full step passes the test of the line search. -/
theorem IsQP.full_step (h : IsQP prob Q q c A b) (hQ : SPD Q) {eps : K} {cfg : Settings K} (he : cfg.eta ≤ 1 / 2)
    {x p : Fin n → K} {y : Dual K n me mi} (hs : Stationary prob bd (x + p) y) (hgap : cfg.eta * infNorm y * eps ≤ (1 / 2 - cfg.eta) * (p ⬝ᵥ Q *ᵥ p)) (logged : K) :
    (lineSearch eps cfg prob bd (prob.costGrad x) y x p logged).1 = 1 := by
  obtain ⟨k, -, h1, -, h3⟩ := lineSearch_spec eps cfg prob bd (prob.costGrad x) y x p logged
  rw [h1]
  by_cases hk : k = 0
  · rw [hk, pow_zero]
  · exfalso
    refine h3 0 (Nat.pos_of_ne_zero hk) ?_
    rw [pow_zero]
    unfold Armijo merit
    have ex : (fun i => x i + 1 * p i) = x + p := by funext i; rw [one_mul]; rfl
    have hfeas : l1Violation (prob.eq (x + p)) (prob.ineq (x + p)) bd.lbg bd.ubg (x + p) bd.lbx bd.ubx = 0 := by
      rw [l1Violation_eq_zero_iff]; exact hs.2.1
    rw [ex, hfeas, h.cost_add hQ.1]
    have hsl := slope_le ((h.kkt_iff x p y).2 hs)
    have e1 : (fun i => prob.constr x (Fin.castAdd mi i)) = prob.eq x := funext (h.coherent x).1
    have e2 : (fun i => prob.constr x (Fin.natAdd me i)) = prob.ineq x := funext (h.coherent x).2
    rw [e1, e2] at hsl
    generalize l1Violation (prob.eq x) (prob.ineq x) bd.lbg bd.ubg x bd.lbx bd.ubx = v at *
    have hm : (1 / 2 - cfg.eta) * (prob.costGrad x ⬝ᵥ p - infNorm y * v) ≤ (1 / 2 - cfg.eta) * -(p ⬝ᵥ Q *ᵥ p) :=
      mul_le_mul_of_nonneg_left hsl (by linarith)
    linarith

/-- **C163.** Let the problem be a strictly convex quadratic program with solution `xs` and unique multipliers `ys`, `eta ≤ 1/2`, and the QP solver exact. If the guess is not
closer to the solution than `eta ‖ys‖ eps ≤ (1/2 - eta) dᵀQd`, with `d` the distance to it, the solver reports `SOLVED` after at most two iterations, with exactly the solution and
the multipliers. -/
theorem IsQP.solved [NeZero n] (h : IsQP prob Q q c A b) (hQ : SPD Q) {eps : K} (heps : 0 < eps) {cfg : Settings K} (he : cfg.eta ≤ 1 / 2)
    (hmax : 2 ≤ cfg.maxIter) (hp : 0 ≤ cfg.epsPrim) (hd : 0 ≤ cfg.epsDual) (hl : LawfulPrecond prec) (hpd : ∀ m qp, ∃ r, prec.compute m qp = some r) (hex : ExactQP qps)
    {xs : Fin n → K} {ys : Dual K n me mi} (hs : Stationary prob bd xs ys) (hu : ∀ y, Stationary prob bd xs y → y = ys) (st : State K n me mi prec qps)
    (hgap : cfg.eta * infNorm ys * eps ≤ (1 / 2 - cfg.eta) * ((xs - st.x) ⬝ᵥ Q *ᵥ (xs - st.x))) :
    ∃ r, solve (defaultEnv eps cfg prob bd) st = some r ∧ r.status = .SOLVED ∧ r.iter ≤ 2 ∧ r.x = xs ∧ r.lam = ys := by
  obtain ⟨r, hr⟩ := solve_defined (qps := qps) heps (cfg := cfg) (prob := prob) (bd := bd) hl hpd st (by rw [h.hess]; exact hQ)
  have hstat : ∀ x, Stationary prob bd (x + (xs - x)) ys := fun x => by rw [add_sub_cancel]; exact hs
  -- the first iteration
  have first : ∀ s, firstPass (defaultEnv eps cfg prob bd) st = some s → s.x = xs ∧ s.lam = ys := by
    intro s hf
    unfold firstPass at hf
    obtain ⟨s1, h1, rfl⟩ := Option.map_eq_some_iff.1 hf
    have hqp : (linearise (defaultEnv eps cfg prob bd) (start st) : State K n me mi prec qps).qp = formQP bd st.x Q (prob.costGrad st.x) (prob.jac st.x) (prob.constr st.x) := by
      show formQP bd st.x (prob.lagHess st.x st.lam) _ _ _ = _
      rw [h.hess]; rfl
    have hk : (linearise (defaultEnv eps cfg prob bd) (start st) : State K n me mi prec qps).qp.KKT (xs - st.x) ys := by
      rw [hqp]; exact (h.kkt_iff _ _ _).2 (hstat _)
    obtain ⟨p, k1, -, k3, -, k5, -⟩ := qpStep_exact hl hex h1 (by rw [hqp]; exact hQ) ⟨_, _, hk⟩
    have hps : p = xs - st.x := kkt_primal_unique (by rw [hqp]; exact hQ) k1 hk
    subst hps
    have hlam : s1.lamK = ys := by
      rw [hqp, h.kkt_iff, add_sub_cancel] at k1
      exact hu _ k1
    have ha : ((defaultEnv eps cfg prob bd : Env K n me mi prec qps).stepSize (linearise (defaultEnv eps cfg prob bd) (start st)).qp.h s1.lamK
        (linearise (defaultEnv eps cfg prob bd) (start st)).x (xs - st.x) (linearise (defaultEnv eps cfg prob bd) (start st)).cost).1 = 1 := by
      rw [hlam]
      exact h.full_step hQ he (hstat st.x) hgap _
    rw [ha] at k3 k5
    refine ⟨k3.trans (funext fun i => ?_), k5.trans (funext fun i => ?_)⟩
    · show st.x i + 1 * (xs i - st.x i) = xs i
      ring
    · rw [hlam]
      show st.lam i + 1 * (ys i - st.lam i) = ys i
      ring
  -- at the solution
  have viol : ∀ s : State K n me mi prec qps, s.x = xs → maxConstraintsViolation prob bd s.x ≤ 0 := by
    intro s hx
    rw [maxViolation_le_iff, hx]
    obtain ⟨f1, f2, f3⟩ := hs.2.1
    exact ⟨le_refl _, fun i => by rw [f1 i, abs_zero], fun i => ⟨by linarith [(f2 i).1], by linarith [(f2 i).2]⟩, fun i => ⟨by linarith [(f3 i).1], by linarith [(f3 i).2]⟩⟩
  have second : ∀ s s', SPD s.qp.H → s.x = xs → s.lam = ys → pass (defaultEnv eps cfg prob bd : Env K n me mi prec qps) s = some s' →
      s'.x = xs ∧ s'.lam = ys ∧ terminated (defaultEnv eps cfg prob bd) s' = true := by
    intro s s' hH hx hlam hps
    obtain ⟨s1, s2, h1, h2, rfl⟩ := pass_parts hps
    obtain ⟨H', hH', e1⟩ := updateLinearisation_spec h1
    have hspd : SPD H' := by
      obtain ⟨B', hB, hS⟩ := bfgs_keeps_spd heps hH s.stepPrev (prob.lagGrad s.x s.lam - s.lagGradient)
      have : some H' = some B' := hH'.symm.trans hB
      rw [Option.some.inj this]; exact hS
    have hqp : s1.qp = formQP bd xs H' (prob.costGrad xs) (prob.jac xs) (prob.constr xs) := by
      rw [e1]
      show formQP bd s.x H' (prob.costGrad s.x) (prob.jac s.x) (prob.constr s.x) = _
      rw [hx]
    have hx1 : s1.x = xs := by rw [e1]; exact hx
    have hl1 : s1.lam = ys := by rw [e1]; exact hlam
    have hk : s1.qp.KKT 0 ys := by rw [hqp]; exact (zero_step_iff_stationary h.coherent bd xs H' ys).2 hs
    obtain ⟨p, k1, k2, k3, k4, k5, k6⟩ := qpStep_exact hl hex h2 (by rw [hqp]; exact hspd) ⟨_, _, hk⟩
    have hp0 : p = 0 := kkt_primal_unique (by rw [hqp]; exact hspd) k1 hk
    subst hp0
    have hlk : s2.lamK = ys := by
      rw [hqp] at k1
      exact hu _ ((zero_step_iff_stationary h.coherent bd xs H' _).1 k1)
    obtain ⟨_, _, p', lamK', α', _, -, -, -, -, m5, -, m6, -, -, -, m9, -⟩ := qpStep_spec h2
    obtain ⟨c1, c2, -, -, c5, c6, -⟩ := callback_fields (defaultEnv eps cfg prob bd) s2
    have hx2 : s2.x = xs := by
      rw [k3, hx1]; funext i
      show xs i + _ * (0 : K) = xs i
      ring
    have hl2 : s2.lam = ys := by
      rw [k5, hl1, hlk]; funext i
      show ys i + _ * (ys i - ys i) = ys i
      ring
    refine ⟨c1.trans hx2, c2.trans hl2, ?_⟩
    unfold terminated
    have t1 : (measure (defaultEnv eps cfg prob bd) (callback (defaultEnv eps cfg prob bd) s2)).primalNorm = 0 := by
      show (callback (defaultEnv eps cfg prob bd) s2).primalNorm = 0
      rw [c5, k6, norm_zero', mul_zero]
    have t2 : (measure (defaultEnv eps cfg prob bd) (callback (defaultEnv eps cfg prob bd) s2)).dualNorm = 0 := by
      show (callback (defaultEnv eps cfg prob bd) s2).dualNorm = 0
      rw [c6, m9, ← m5, hlk, hl1, sub_self, norm_zero', mul_zero]
    have t3 : (measure (defaultEnv eps cfg prob bd) (callback (defaultEnv eps cfg prob bd) s2)).maxViolation ≤ 0 := viol _ (c1.trans hx2)
    rw [t1, t2]
    simp only [Bool.and_eq_true, decide_eq_true_eq]
    exact ⟨⟨hp, hd⟩, t3.trans hp⟩
  rw [solve_eq, Option.bind_eq_some_iff] at hr
  obtain ⟨s, hf, h2⟩ := hr
  obtain ⟨hx, hlam⟩ := first s hf
  have hit := (firstPass_spec hf).1
  have hvis : Visited (defaultEnv eps cfg prob bd) st s := .first hf
  refine ⟨r, by rw [solve_eq, hf]; exact h2, ?_⟩
  by_cases ht : terminated (defaultEnv eps cfg prob bd) s = true
  · rw [if_pos ht] at h2
    cases h2
    exact ⟨rfl, by show s.iter ≤ 2; omega, hx, hlam⟩
  · rw [if_neg ht] at h2
    obtain ⟨k, hk⟩ : ∃ k, ((defaultEnv eps cfg prob bd : Env K n me mi prec qps).cfg.maxIter - 1).toNat = k + 1 :=
      ⟨(cfg.maxIter - 2).toNat, by show (cfg.maxIter - 1).toNat = _; omega⟩
    rw [hk, loop_succ, if_pos (by show s.iter < cfg.maxIter; omega), Option.bind_eq_some_iff] at h2
    obtain ⟨s', hps, h3⟩ := h2
    obtain ⟨g1, g2, g3⟩ := second s s' (every_qp_strictly_convex heps hl (by rw [h.hess]; exact hQ) hvis) hx hlam hps
    rw [if_pos g3] at h3
    cases h3
    refine ⟨rfl, ?_, g1, g2⟩
    have := (pass_spec hps).1
    show s'.iter ≤ 2
    omega

/-- Minimise `½(x₀² + x₁²)` subject to `x₀ + x₁ = 2`, `3/2 ≤ x₁ ≤ 10` (as an inequality constraint) and `-10 ≤ x ≤ 10`. -/
def quadProblem : Problem ℚ 2 1 1 where
  cost x := (x 0 ^ 2 + x 1 ^ 2) / 2
  eq x := fun _ => x 0 + x 1 - 2
  ineq x := fun _ => x 1
  costGrad x := x
  constr x := ![x 0 + x 1 - 2, x 1]
  jac _ := !![1, 1; 0, 1]
  lagGrad x l := ![x 0 + l (Sum.inl 0) + l (Sum.inr 0), x 1 + l (Sum.inl 0) + l (Sum.inl 1) + l (Sum.inr 1)]
  lagHess _ _ := 1

def quadBounds : Bounds ℚ 2 1 where
  lbg := fun _ => 3 / 2
  ubg := fun _ => 10
  lbx := fun _ => -10
  ubx := fun _ => 10

theorem quadProblem_isQP : IsQP quadProblem 1 0 0 !![1, 1; 0, 1] ![-2, 0] where
  cost x := by
    simp only [quadProblem, one_mulVec, dotProduct, Fin.sum_univ_two, Pi.zero_apply]
    ring
  grad x := by simp [quadProblem]
  eq x i := by
    fin_cases i
    simp [quadProblem, Fin.castAdd, mulVec, dotProduct, Fin.sum_univ_two]
    ring
  ineq x i := by
    fin_cases i
    simp [quadProblem, Fin.natAdd, mulVec, dotProduct, Fin.sum_univ_two]
  constr x := by
    funext i
    fin_cases i
    · simp [quadProblem, mulVec, dotProduct, Fin.sum_univ_two]; ring
    · simp [quadProblem, mulVec, dotProduct, Fin.sum_univ_two]
  jac _ := rfl
  hess _ _ := rfl

theorem quad_stationary_iff (y : Dual ℚ 2 1 1) :
    Stationary quadProblem quadBounds ![1 / 2, 3 / 2] y ↔ y = Sum.elim ![-1 / 2, -1] 0 := by
  have key : ∀ j, (eqRows (quadProblem.jac ![1 / 2, 3 / 2]))ᵀ *ᵥ lamE y = (fun _ => y (Sum.inl 0)) ∧
      ((ineqRows (quadProblem.jac ![1 / 2, 3 / 2]))ᵀ *ᵥ lamI y) j = ![0, y (Sum.inl 1)] j := by
    intro j
    constructor
    · funext i
      fin_cases i <;> simp [quadProblem, eqRows, lamE, mulVec, dotProduct, Fin.castAdd]
    · fin_cases j <;> simp [quadProblem, ineqRows, lamI, mulVec, dotProduct, Fin.natAdd]
  unfold Stationary NlpKKT
  constructor
  · rintro ⟨h1, -, -, h4⟩
    have hx : ∀ i, lamX y i = 0 := by
      intro i
      rcases lt_trichotomy (lamX y i) 0 with h | h | h
      · have := (h4 i).2 h
        fin_cases i <;> norm_num [quadBounds] at this
      · exact h
      · have := (h4 i).1 h
        fin_cases i <;> norm_num [quadBounds] at this
    have g0 := congrFun h1 0
    have g1 := congrFun h1 1
    rw [Pi.add_apply, Pi.add_apply, Pi.add_apply, (key 0).1, (key 0).2, hx] at g0
    rw [Pi.add_apply, Pi.add_apply, Pi.add_apply, (key 1).1, (key 1).2, hx] at g1
    norm_num [quadProblem] at g0 g1
    funext i
    obtain i | i := i
    · fin_cases i
      · show y (Sum.inl 0) = -1 / 2
        linarith
      · show y (Sum.inl 1) = -1
        linarith
    · exact hx i
  · rintro rfl
    refine ⟨?_, ⟨fun i => ?_, fun i => ?_, fun i => ?_⟩, fun i => ?_, fun i => ?_⟩
    · funext j
      simp only [Pi.add_apply, (key j).1, (key j).2]
      fin_cases j <;> norm_num [quadProblem, lamX]
    · norm_num [quadProblem]
    · norm_num [quadProblem, quadBounds]
    · fin_cases i <;> norm_num [quadBounds]
    · fin_cases i
      norm_num [lamI, quadProblem, quadBounds, Fin.natAdd]
    · simp [lamX]

/-- With the default settings, from the guess `0`, the solver returns `x = (1/2, 3/2)` with multipliers `-1/2` and `-1`, whatever exact QP solver is used. -/
example {qps : QPSolver ℚ 2 (1 + 1)} (hex : ExactQP qps) (st : State ℚ 2 1 1 (identityPrecond ℚ 2 (1 + 1)) qps) (h0 : st.x = 0) :
    ∃ r, solve (defaultEnv (1 / 2 ^ 52) Settings.default quadProblem quadBounds) st = some r ∧ r.status = .SOLVED ∧ r.iter ≤ 2 ∧
      r.x = ![1 / 2, 3 / 2] ∧ r.lam = Sum.elim ![-1 / 2, -1] 0 := by
  have hQ : SPD (1 : Matrix (Fin 2) (Fin 2) ℚ) := by
    refine ⟨transpose_one, fun v hv => ?_⟩
    rw [one_mulVec]
    exact lt_of_le_of_ne (Finset.sum_nonneg fun i _ => mul_self_nonneg _) (Ne.symm fun h => hv (dotProduct_self_eq_zero.1 h))
  refine quadProblem_isQP.solved hQ (by norm_num) (by decide +kernel) (by decide +kernel) (by decide +kernel) (by decide +kernel) (identity_lawful _)
    (fun m qp => ⟨_, rfl⟩) hex ((quad_stationary_iff _).2 rfl) (fun y => (quad_stationary_iff y).1) st ?_
  rw [h0, sub_zero, one_mulVec]
  have : infNorm (Sum.elim ![-1 / 2, -1] 0 : Dual ℚ 2 1 1) ≤ 1 := by
    rw [infNorm_le_iff]
    refine ⟨by norm_num, fun i => ?_⟩
    obtain i | i := i
    · fin_cases i <;> norm_num [abs_le]
    · norm_num
  have he : (Settings.default : Settings ℚ).eta = 1 / 4 := rfl
  rw [he]
  simp only [dotProduct, Fin.sum_univ_two]
  norm_num
  linarith

end PolyMPC.Sqp
