import Verif.Props.SqpGlobal

/-!
# Property C207: SQP with affine constraints from a guess that violates them

Every QP of the run is solvable if the problem is, a step of size `a` multiplies the violation of each constraint by at
most `1 - a`, and the line search does not take steps much shorter than needed. So the violation decreases geometrically,
and it is zero from the first full step on.
-/

namespace PolyMPC.Sqp
open Matrix PolyMPC.Spec PolyMPC.QuasiNewton Set
set_option linter.unusedSectionVars false

variable {n me mi : ℕ} {prec : Precond ℝ n (me + mi)} {qps : QPSolver ℝ n (me + mi)}

/-- The sum of the violations of all constraints at `x`. -/
noncomputable def totalViolation (prob : Problem ℝ n me mi) (bd : Bounds ℝ n mi) (x : Fin n → ℝ) : ℝ :=
  l1Violation (prob.eq x) (prob.ineq x) bd.lbg bd.ubg x bd.lbx bd.ubx

/-- Every constraint is violated at `y` at most by `c` times its violation at `x`. -/
def ViolationScaled (prob : Problem ℝ n me mi) (bd : Bounds ℝ n mi) (c : ℝ) (x y : Fin n → ℝ) : Prop :=
  (∀ i, |prob.eq y i| ≤ c * |prob.eq x i|) ∧
  (∀ i, outside (bd.lbg i) (bd.ubg i) (prob.ineq y i) ≤ c * outside (bd.lbg i) (bd.ubg i) (prob.ineq x i)) ∧
  ∀ i, outside (bd.lbx i) (bd.ubx i) (y i) ≤ c * outside (bd.lbx i) (bd.ubx i) (x i)

theorem outside_segment {lo up x p a : ℝ} (h0 : 0 ≤ a) (h1 : a ≤ 1) (hl : lo ≤ x + p) (hu : x + p ≤ up) :
    outside lo up (x + a * p) ≤ (1 - a) * outside lo up x := by
  unfold outside
  rw [mul_add]
  have key : ∀ r s : ℝ, s ≤ (1 - a) * r → max s 0 ≤ (1 - a) * max r 0 := by
    intro r s h
    refine max_le (h.trans (mul_le_mul_of_nonneg_left (le_max_left _ _) (by linarith))) ?_
    exact mul_nonneg (by linarith) (le_max_right _ _)
  refine add_le_add (key _ _ ?_) (key _ _ ?_) <;> nlinarith

section step
variable {prob : Problem ℝ n me mi} {bd : Bounds ℝ n mi}

theorem AffineConstraints.along (h : AffineConstraints prob) (x p : Fin n → ℝ) (a : ℝ) :
    (∀ i, prob.eq (x + a • p) i = prob.eq x i + a * (prob.eq (x + p) i - prob.eq x i)) ∧
    ∀ i, prob.ineq (x + a • p) i = prob.ineq x i + a * (prob.ineq (x + p) i - prob.ineq x i) := by
  have hc : ∀ i, prob.constr (x + a • p) i = prob.constr x i + a * (prob.constr (x + p) i - prob.constr x i) := by
    intro i
    rw [h.affine, h.affine, mulVec_smul, Pi.add_apply, Pi.add_apply, Pi.smul_apply, smul_eq_mul]
    ring
  refine ⟨fun i => ?_, fun i => ?_⟩
  · rw [← (h.coherent _).1, ← (h.coherent _).1, ← (h.coherent _).1]; exact hc _
  · rw [← (h.coherent _).2, ← (h.coherent _).2, ← (h.coherent _).2]; exact hc _

/-- A step of size `a` towards a feasible point multiplies every violation by at most `1 - a`. -/
theorem AffineConstraints.shrinks (h : AffineConstraints prob) {x p : Fin n → ℝ} {a : ℝ} (h0 : 0 ≤ a) (h1 : a ≤ 1)
    (hf : x + p ∈ feasibleSet prob bd) : ViolationScaled prob bd (1 - a) x (x + a • p) := by
  obtain ⟨e1, e2⟩ := h.along x p a
  obtain ⟨f1, f2, f3⟩ := hf
  refine ⟨fun i => ?_, fun i => ?_, fun i => ?_⟩
  · rw [e1, f1 i]
    have : prob.eq x i + a * (0 - prob.eq x i) = (1 - a) * prob.eq x i := by ring
    rw [this, abs_mul, abs_of_nonneg (by linarith : 0 ≤ 1 - a)]
  · rw [e2]
    exact outside_segment h0 h1 (by linarith [(f2 i).1]) (by linarith [(f2 i).2])
  · exact outside_segment h0 h1 (f3 i).1 (f3 i).2

theorem ViolationScaled.total {c : ℝ} {x y : Fin n → ℝ} (h : ViolationScaled prob bd c x y) :
    totalViolation prob bd y ≤ c * totalViolation prob bd x := by
  unfold totalViolation l1Violation
  rw [mul_add, mul_add, Finset.mul_sum, Finset.mul_sum, Finset.mul_sum]
  exact add_le_add (add_le_add (Finset.sum_le_sum fun i _ => h.1 i) (Finset.sum_le_sum fun i _ => h.2.1 i))
    (Finset.sum_le_sum fun i _ => h.2.2 i)

theorem totalViolation_nonneg (prob : Problem ℝ n me mi) (bd : Bounds ℝ n mi) (x : Fin n → ℝ) :
    0 ≤ totalViolation prob bd x := by
  have ho : ∀ lo up z : ℝ, 0 ≤ outside lo up z := fun _ _ _ => add_nonneg (le_max_right _ _) (le_max_right _ _)
  exact add_nonneg (add_nonneg (Finset.sum_nonneg fun _ _ => abs_nonneg _) (Finset.sum_nonneg fun _ _ => ho _ _ _))
    (Finset.sum_nonneg fun _ _ => ho _ _ _)

end step

/-- The QP at any point has a solution if the problem is feasible. -/
theorem AffineConstraints.solvable_any {env : Env ℝ n me mi prec qps} (hA : AffineConstraints env.prob)
    (hne : (feasibleSet env.prob env.bd).Nonempty) (x : Fin n → ℝ) {H : Matrix (Fin n) (Fin n) ℝ} (hH : Hᵀ = H) :
    ∃ p y, (formQP env.bd x H (env.prob.costGrad x) (env.prob.jac x) (env.prob.constr x)).KKT p y := by
  obtain ⟨z, hz⟩ := hne
  refine (QP.exists_kkt_iff (qp := formQP env.bd x H (env.prob.costGrad x) (env.prob.jac x) (env.prob.constr x)) hH).2 ⟨z - x, ?_⟩
  rw [hA.feasible_iff, add_sub_cancel]; exact hz

/-- The Hessians of all QPs formed in the run have the property `P`. -/
structure HessiansWith [NeZero n] (env : Env ℝ n me mi prec qps) (upd : State ℝ n me mi prec qps → Option (State ℝ n me mi prec qps))
    (st : State ℝ n me mi prec qps) (P : Matrix (Fin n) (Fin n) ℝ → Prop) : Prop where
  first : P (env.regularise (env.prob.lagHess st.x st.lam))
  next : ∀ k v, Iterate env upd st (k + 1) v → terminated env v = false → v.iter < env.cfg.maxIter → ∃ H, Forms env upd v H ∧ P H

/-- The matrix is symmetric with curvature at least `m`. -/
def CurvatureAbove (m : ℝ) (H : Matrix (Fin n) (Fin n) ℝ) : Prop := Hᵀ = H ∧ ∀ v, m * (v ⬝ᵥ v) ≤ v ⬝ᵥ H *ᵥ v

section runs
variable [NeZero n] {eps L m : ℝ} {env : Env ℝ n me mi prec qps} {upd : State ℝ n me mi prec qps → Option (State ℝ n me mi prec qps)} {st : State ℝ n me mi prec qps}

theorem CurvatureAbove.spd (hm : 0 < m) {H : Matrix (Fin n) (Fin n) ℝ} (h : CurvatureAbove m H) : SPD H :=
  ⟨h.1, fun x hx => lt_of_lt_of_le (mul_pos hm (lt_of_le_of_ne (dot_self_nonneg x) fun h0 => hx (dotProduct_self_eq_zero.1 h0.symm))) (h.2 x)⟩

/-- Every iterate comes from the previous one by a step. -/
theorem any_step {P : Matrix (Fin n) (Fin n) ℝ → Prop} (hP : ∀ H, P H → SPD H) (hs : LineSearching eps env) (hA : AffineConstraints env.prob)
    (hne : (feasibleSet env.prob env.bd).Nonempty) (hH : HessiansWith env upd st P) {k : ℕ} {v s : State ℝ n me mi prec qps} (hv : Iterate env upd st k v)
    (h : Iterate env upd st (k + 1) s) : ∃ H p a, P H ∧ Step env v.x v.lam H p a s := by
  cases h with
  | first h1 =>
    obtain ⟨s', p, a, h2, h3, -⟩ := firstPass_step (st := st) hs.precond hs.computes hs.qp (hP _ hH.first)
      (hA.solvable_any hne _ (hP _ hH.first).1)
    obtain rfl := Option.some.inj (h1.symm.trans h2)
    cases hv
    exact ⟨_, p, a, hH.first, h3⟩
  | next hv' ht hi hp =>
    obtain rfl := hv.unique hv'
    obtain ⟨H, hF, hB⟩ := hH.next _ _ hv' ht hi
    obtain ⟨s', p, a, h2, h3, -⟩ := passWith_step hs.precond hs.computes hs.qp hF (hP _ hB) (hA.solvable_any hne _ (hP _ hB).1)
    obtain rfl := Option.some.inj (hp.symm.trans h2)
    exact ⟨H, p, a, hB, h3⟩

theorem step_full {x0 : Fin n → ℝ} (hA : AffineConstraints env.prob) {lam0 : Dual ℝ n me mi} {H : Matrix (Fin n) (Fin n) ℝ} {p : Fin n → ℝ} {a : ℝ}
    {s : State ℝ n me mi prec qps} (h : Step env x0 lam0 H p a s) : x0 + p ∈ feasibleSet env.prob env.bd :=
  (hA.feasible_iff x0 p H _).1 ((QP.feasible_iff _ _).2 fun i => (h.kkt.2 i).1)

theorem step_range (hs : LineSearching eps env) {x0 : Fin n → ℝ} {lam0 : Dual ℝ n me mi} {H : Matrix (Fin n) (Fin n) ℝ} {p : Fin n → ℝ} {a : ℝ}
    {s : State ℝ n me mi prec qps} (h : Step env x0 lam0 H p a s) :
    0 < a ∧ a ≤ 1 ∧ env.cfg.tau ^ (env.cfg.lineSearchMaxIter - 1).toNat ≤ a := by
  obtain ⟨c, ha⟩ := h.size
  rw [hs.search] at ha
  obtain ⟨k, k1, k2, -, -⟩ := lineSearch_spec eps env.cfg env.prob env.bd (env.prob.costGrad x0) s.lamK x0 p c
  rw [← ha] at k2
  refine ⟨by rw [k2]; exact pow_pos hs.tau k, by rw [k2]; exact pow_le_one₀ hs.tau.le hs.tau1, ?_⟩
  rw [k2]
  refine pow_le_pow_of_le_one hs.tau.le hs.tau1 ?_
  rcases le_total env.cfg.lineSearchMaxIter 1 with hle | hle
  · rw [max_eq_left hle] at k1; omega
  · rw [max_eq_right hle] at k1; omega

/-- The line search does not take steps much shorter than needed, also at points that violate the constraints. -/
theorem step_lower (hs : LineSearching eps env) (hA : AffineConstraints env.prob) (hL : 0 ≤ L) (hg : HasGradientOn env.prob.cost env.prob.costGrad univ)
    (hlip : EuclideanLipschitzOn env.prob.costGrad L univ) (hm : 0 < m) (heta : env.cfg.eta < 1) {x0 : Fin n → ℝ}
    {lam0 : Dual ℝ n me mi} {H : Matrix (Fin n) (Fin n) ℝ} (hH : ∀ v, m * (v ⬝ᵥ v) ≤ v ⬝ᵥ H *ᵥ v) {p : Fin n → ℝ} {a : ℝ} {s : State ℝ n me mi prec qps}
    (h : Step env x0 lam0 H p a s) :
    p ⬝ᵥ p ≤ 2 * env.cfg.eta * infNorm s.lamK * eps / ((1 - env.cfg.eta) * m) ∨ a = 1 ∨ env.cfg.tau * ((1 - env.cfg.eta) * m) ≤ a * L := by
  have hfull := step_full hA h
  obtain ⟨c, ha⟩ := h.size
  rw [hs.search] at ha
  obtain ⟨k, -, k2, -, k4⟩ := lineSearch_spec eps env.cfg env.prob env.bd (env.prob.costGrad x0) s.lamK x0 p c
  rw [← ha] at k2
  have hem : 0 < (1 - env.cfg.eta) * m := mul_pos (by linarith) hm
  rcases Nat.eq_zero_or_pos k with rfl | hk
  · exact Or.inr (Or.inl (by rw [k2, pow_zero]))
  rw [or_iff_not_imp_left]
  intro hlong
  right
  rw [not_le, div_lt_iff₀ hem] at hlong
  have h1 := k4 (k - 1) (by omega)
  set b := env.cfg.tau ^ (k - 1) with hb
  have hab : a = env.cfg.tau * b := by rw [k2, hb, ← pow_succ']; congr 1; omega
  have hb0 : 0 < b := pow_pos hs.tau _
  have hb1 : b ≤ 1 := pow_le_one₀ hs.tau.le hs.tau1
  have hv : totalViolation env.prob env.bd (x0 + b • p) ≤ (1 - b) * totalViolation env.prob env.bd x0 :=
    (hA.shrinks hb0.le hb1 hfull).total
  have hslope : env.prob.costGrad x0 ⬝ᵥ p - infNorm s.lamK * totalViolation env.prob env.bd x0 ≤ -(m * (p ⬝ᵥ p)) := by
    have h1 := slope_le h.kkt
    have e1 : (fun i => env.prob.constr x0 (Fin.castAdd mi i)) = env.prob.eq x0 := funext (hA.coherent x0).1
    have e2 : (fun i => env.prob.constr x0 (Fin.natAdd me i)) = env.prob.ineq x0 := funext (hA.coherent x0).2
    rw [e1, e2] at h1
    have := hH p
    unfold totalViolation
    linarith
  unfold Armijo merit at h1
  have ex : (fun i => x0 i + b * p i) = x0 + b • p := rfl
  rw [ex, not_le] at h1
  change env.prob.cost x0 + infNorm s.lamK * (eps + totalViolation env.prob env.bd x0) +
    b * env.cfg.eta * (env.prob.costGrad x0 ⬝ᵥ p - infNorm s.lamK * (eps + totalViolation env.prob env.bd x0)) <
    env.prob.cost (x0 + b • p) + infNorm s.lamK * (eps + totalViolation env.prob env.bd (x0 + b • p)) at h1
  have h2 := descent convex_univ hL hg hlip (mem_univ x0) (mem_univ (x0 + b • p))
  rw [add_sub_cancel_left, dotProduct_smul, smul_dotProduct, dotProduct_smul, smul_eq_mul, smul_eq_mul, smul_eq_mul] at h2
  have hμ0 : 0 ≤ infNorm s.lamK := infNorm_nonneg _
  have hv2 := mul_le_mul_of_nonneg_left hv hμ0
  set g := env.prob.costGrad x0 ⬝ᵥ p with hg'
  set q := p ⬝ᵥ p with hq
  set μ := infNorm s.lamK with hμ
  set V := totalViolation env.prob env.bd x0 with hV
  set W := totalViolation env.prob env.bd (x0 + b • p) with hW
  -- the slope of the merit function
  set D := g - μ * V with hD
  have h3 : b * ((1 - env.cfg.eta) * -D - env.cfg.eta * (μ * eps)) < b * (L / 2 * b * q) := by nlinarith
  have h4 := lt_of_mul_lt_mul_left h3 hb0.le
  have h5 : (1 - env.cfg.eta) * (m * q) ≤ (1 - env.cfg.eta) * -D := mul_le_mul_of_nonneg_left (by linarith) (by linarith)
  have h6 : ((1 - env.cfg.eta) * m) * q < b * L * q := by nlinarith
  have h7 := lt_of_mul_lt_mul_right h6 (dot_self_nonneg p)
  rw [hab, mul_assoc]
  exact mul_le_mul_of_nonneg_left h7.le hs.tau.le

/-- C207. Let the constraints be affine and satisfied by some point, and the QPs strictly convex. Then `solve` is defined,
whatever the guess. In each iteration the violation of every constraint is multiplied by at most `1 - a`, where `a` is the
size of the step, so it never increases, it is below `(1 - a₀)^k` times the violation of the guess after `k` iterations,
where `a₀` is the smallest step size of the line search, and the iterates stay feasible once they are. -/
theorem affine_violation (hs : LineSearching eps env) (hA : AffineConstraints env.prob) (hne : (feasibleSet env.prob env.bd).Nonempty)
    (hH : HessiansWith env upd st SPD) :
    (∃ r, solveWith env upd st = some r) ∧
    (∀ k v s, Iterate env upd st k v → Iterate env upd st (k + 1) s → ∃ p a, 0 < a ∧ a ≤ 1 ∧ s.x = v.x + a • p ∧
      s.primalNorm = a * infNorm p ∧ ViolationScaled env.prob env.bd (1 - a) v.x s.x ∧
      (a = 1 → s.x ∈ feasibleSet env.prob env.bd) ∧ (v.x ∈ feasibleSet env.prob env.bd → s.x ∈ feasibleSet env.prob env.bd)) ∧
    ∀ k s, Iterate env upd st k s → totalViolation env.prob env.bd s.x ≤
      (1 - env.cfg.tau ^ (env.cfg.lineSearchMaxIter - 1).toNat) ^ k * totalViolation env.prob env.bd st.x := by
  refine ⟨?_, fun k v s hv h => ?_, fun k => ?_⟩
  · obtain ⟨r, hr, -⟩ := solveWith_stops (env := env) (upd := upd) (st := st) (by
      obtain ⟨s, -, -, h1, -, h2, -⟩ := firstPass_step (st := st) hs.precond hs.computes hs.qp hH.first (hA.solvable_any hne _ hH.first.1)
      exact ⟨s, h1, h2⟩) (fun k v hv ht hi => by
      obtain ⟨H, hF, hB⟩ := hH.next k v hv ht hi
      obtain ⟨s, -, -, h1, -, h2, -⟩ := passWith_step hs.precond hs.computes hs.qp hF hB (hA.solvable_any hne _ hB.1)
      exact ⟨s, h1, h2⟩)
    exact ⟨r, hr⟩
  · obtain ⟨H, p, a, hB, h1⟩ := any_step (fun _ h => h) hs hA hne hH hv h
    obtain ⟨a0, a1, -⟩ := step_range hs h1
    have hfull := step_full hA h1
    refine ⟨p, a, a0, a1, h1.x, h1.primal, ?_, fun ha => ?_, fun hvx => ?_⟩
    · rw [h1.x]; exact hA.shrinks a0.le a1 hfull
    · rw [h1.x, ha, one_smul]; exact hfull
    · rw [h1.x]
      have := (hA.convex (bd := env.bd)).add_smul_sub_mem hvx hfull (t := a) ⟨a0.le, a1⟩
      rwa [add_sub_cancel_left] at this
  · induction k with
    | zero => intro s h; cases h; rw [pow_zero, one_mul]
    | succ k ih =>
      intro s h
      obtain ⟨v, hv⟩ := h.pred
      obtain ⟨H, p, a, hB, h1⟩ := any_step (fun _ h => h) hs hA hne hH hv h
      obtain ⟨a0, a1, a2⟩ := step_range hs h1
      have h3 : totalViolation env.prob env.bd s.x ≤ (1 - a) * totalViolation env.prob env.bd v.x := by
        rw [h1.x]; exact (hA.shrinks a0.le a1 (step_full hA h1)).total
      have h4 := ih v hv
      rw [pow_succ']
      have h5 := mul_le_mul_of_nonneg_right (sub_le_sub_left a2 1) (totalViolation_nonneg env.prob env.bd v.x)
      refine h3.trans (h5.trans ?_)
      rw [mul_assoc]
      exact mul_le_mul_of_nonneg_left h4 (by linarith)

/-- C207, with a rate: if the gradient of the cost is Lipschitz with constant `L` and the curvature of the QPs is at least
`m`, then each iteration multiplies all violations by at most `1 - tau (1 - eta) m / L` (or makes them zero), unless its
step is of the order of the square root of the machine precision. -/
theorem affine_rate (hs : LineSearching eps env) (hA : AffineConstraints env.prob) (hne : (feasibleSet env.prob env.bd).Nonempty)
    (hm : 0 < m) (hH : HessiansWith env upd st (CurvatureAbove m)) (hL : 0 < L) (hg : HasGradientOn env.prob.cost env.prob.costGrad univ)
    (hlip : EuclideanLipschitzOn env.prob.costGrad L univ) (heta : env.cfg.eta < 1)
    {k : ℕ} {v s : State ℝ n me mi prec qps} (hv : Iterate env upd st k v) (h : Iterate env upd st (k + 1) s) :
    s.primalNorm ^ 2 ≤ 2 * env.cfg.eta * infNorm s.lamK * eps / ((1 - env.cfg.eta) * m) ∨
    s.x ∈ feasibleSet env.prob env.bd ∨
    (env.cfg.tau * ((1 - env.cfg.eta) * m) / L ≤ 1 ∧
      ViolationScaled env.prob env.bd (1 - env.cfg.tau * ((1 - env.cfg.eta) * m) / L) v.x s.x) := by
  obtain ⟨H, p, a, hB, h1⟩ := any_step (fun _ h => h.spd hm) hs hA hne hH hv h
  obtain ⟨a0, a1, -⟩ := step_range hs h1
  have hfull := step_full hA h1
  rcases step_lower hs hA hL.le hg hlip hm heta hB.2 h1 with h2 | h2 | h2
  · left
    refine le_trans ?_ h2
    rw [h1.primal, mul_pow]
    have h3 := sq_infNorm_le p
    have h4 : a ^ 2 ≤ 1 := pow_le_one₀ a0.le a1
    exact (mul_le_of_le_one_left (sq_nonneg _) h4).trans h3
  · right; left
    rw [h1.x, h2, one_smul]; exact hfull
  · right; right
    have h3 : env.cfg.tau * ((1 - env.cfg.eta) * m) / L ≤ a := by rw [div_le_iff₀ hL]; exact h2
    refine ⟨h3.trans a1, ?_⟩
    obtain ⟨b1, b2, b3⟩ := hA.shrinks (bd := env.bd) a0.le a1 hfull
    rw [← h1.x] at b1 b2 b3
    have ho : ∀ lo up z : ℝ, 0 ≤ outside lo up z := fun _ _ _ => add_nonneg (le_max_right _ _) (le_max_right _ _)
    exact ⟨fun i => (b1 i).trans (mul_le_mul_of_nonneg_right (by linarith) (abs_nonneg _)),
      fun i => (b2 i).trans (mul_le_mul_of_nonneg_right (by linarith) (ho _ _ _)),
      fun i => (b3 i).trans (mul_le_mul_of_nonneg_right (by linarith) (ho _ _ _))⟩

/-- With the exact linearisation in every iteration it suffices that all (regularised) Hessians have the property. -/
theorem exact_with {P : Matrix (Fin n) (Fin n) ℝ → Prop} (h : ∀ x lam, P (env.regularise (env.prob.lagHess x lam))) :
    HessiansWith env (exactUpdate env) st P where
  first := h _ _
  next _ v _ _ _ := ⟨_, forms_exact v, h _ _⟩

/-- With the default updates it suffices that the Hessian at the guess is positive definite. -/
theorem bfgs_spd {cfg : Settings ℝ} {prob : Problem ℝ n me mi} {bd : Bounds ℝ n mi} (heps : 0 < eps) (hl : LawfulPrecond prec)
    (hpd : ∀ m qp, ∃ r, prec.compute m qp = some r) (hex : ExactQP qps) (hA : AffineConstraints prob)
    (hne : (feasibleSet prob bd).Nonempty) (h0 : SPD (prob.lagHess st.x st.lam)) :
    HessiansWith (defaultEnv eps cfg prob bd) (updateLinearisation (defaultEnv eps cfg prob bd)) st SPD := by
  have forms : ∀ v : State ℝ n me mi prec qps, SPD v.qp.H →
      ∃ H, Forms (defaultEnv eps cfg prob bd) (updateLinearisation (defaultEnv eps cfg prob bd)) v H ∧ SPD H := by
    intro v hv
    obtain ⟨H, h1, h2⟩ := bfgs_keeps_spd heps hv v.stepPrev (prob.lagGrad v.x v.lam - v.lagGradient)
    refine ⟨H, ⟨{ v with iter := v.iter + 1, lagGradient := prob.lagGrad v.x v.lam, qp := formQP bd v.x H (prob.costGrad v.x) (prob.jac v.x) (prob.constr v.x) }, ?_, rfl, rfl, rfl, rfl, rfl⟩, h2⟩
    show (QuasiNewton.bfgsUpdate eps v.qp.H v.stepPrev (prob.lagGrad v.x v.lam - v.lagGradient)).map _ = _
    rw [h1]; rfl
  have inv : ∀ k v, Iterate (defaultEnv eps cfg prob bd) (updateLinearisation (defaultEnv eps cfg prob bd)) st (k + 1) v → SPD v.qp.H := by
    intro k
    induction k with
    | zero =>
      intro s h
      cases h with
      | first h1 =>
        obtain ⟨s', p, a, h2, h3, -⟩ := firstPass_step (env := (defaultEnv eps cfg prob bd : Env ℝ n me mi prec qps)) (st := st) hl hpd hex h0 (AffineConstraints.solvable_any (env := (defaultEnv eps cfg prob bd : Env ℝ n me mi prec qps)) hA hne _ h0.1)
        obtain rfl := Option.some.inj (h1.symm.trans h2)
        rw [h3.hess]; exact h0
    | succ k ih =>
      intro s h
      cases h with
      | next hv ht hi hp =>
        obtain ⟨H, hF, hB⟩ := forms _ (ih _ hv)
        obtain ⟨s', p, a, h2, h3, -⟩ := passWith_step hl hpd hex hF hB (AffineConstraints.solvable_any (env := (defaultEnv eps cfg prob bd : Env ℝ n me mi prec qps)) hA hne _ hB.1)
        obtain rfl := Option.some.inj (hp.symm.trans h2)
        rw [h3.hess]; exact hB
  exact ⟨h0, fun k v hv _ _ => forms v (inv k v hv)⟩

end runs

/-! ## Example -/

theorem planar_above (x : Fin 2 → ℝ) (lam : Dual ℝ 2 1 0) : CurvatureAbove 1 (planar.lagHess x lam) := by
  refine ⟨?_, fun v => ?_⟩
  · funext i j
    fin_cases i <;> fin_cases j <;> rfl
  · have hmul : planar.lagHess x lam *ᵥ v = ![(3 * x 0 ^ 2 + 1) * v 0, v 1] := by
      funext i
      fin_cases i <;> simp [planar, mulVec, dotProduct, Fin.sum_univ_two]
    rw [hmul, dotProduct, dotProduct, Fin.sum_univ_two, Fin.sum_univ_two]
    show 1 * (v 0 * v 0 + v 1 * v 1) ≤ v 0 * ((3 * x 0 ^ 2 + 1) * v 0) + v 1 * v 1
    nlinarith [mul_nonneg (sq_nonneg (x 0)) (mul_self_nonneg (v 0))]

/-- From the guess `(2, 5)`, which violates the equation and a bound, the violation of `planar` never increases. -/
example {qps : QPSolver ℝ 2 (1 + 0)} (hex : ExactQP qps) {eps : ℝ} (heps : 0 < eps) (N : ℤ) (st : State ℝ 2 1 0 (identityPrecond ℝ 2 (1 + 0)) qps) (hx : st.x = ![2, 5])
    {k : ℕ} {s : State ℝ 2 1 0 (identityPrecond ℝ 2 (1 + 0)) qps}
    (h : Iterate (defaultEnv eps (manyIterations N) planar planarBounds) (updateLinearisation (defaultEnv eps (manyIterations N) planar planarBounds)) st k s) :
    |s.x 0 + s.x 1 - 1| ≤ 11 := by
  have hs : LineSearching eps (defaultEnv eps (manyIterations N) planar planarBounds : Env ℝ 2 1 0 (identityPrecond ℝ 2 (1 + 0)) qps) :=
    ⟨identity_lawful _, fun _ _ => ⟨_, rfl⟩, hex, rfl, heps.le, by show (0 : ℝ) < 1 / 2; norm_num, by show (1 : ℝ) / 2 ≤ 1; norm_num, by show (0 : ℝ) < 1 / 4; norm_num⟩
  have hne : (feasibleSet planar planarBounds).Nonempty := by
    refine ⟨![1, 0], fun _ => ?_, fun i => i.elim0, fun i => ?_⟩
    · show (1 : ℝ) + 0 - 1 = 0; norm_num
    · fin_cases i <;> constructor <;> simp [planarBounds]
  have hH := bfgs_spd (st := st) (cfg := manyIterations N) heps (identity_lawful _) (fun _ _ => ⟨_, rfl⟩) hex planar_affine hne
    ((planar_above st.x st.lam).spd one_pos)
  have h1 := (affine_violation hs planar_affine hne hH).2.2 k s h
  have hle : (1 - (1 / 2 : ℝ) ^ ((100 : ℤ) - 1).toNat) ^ k ≤ 1 := pow_le_one₀
    (by linarith [pow_le_one₀ (n := ((100 : ℤ) - 1).toNat) (by norm_num : (0 : ℝ) ≤ 1 / 2) (by norm_num)])
    (by linarith [pow_nonneg (by norm_num : (0 : ℝ) ≤ 1 / 2) ((100 : ℤ) - 1).toNat])
  have h2 := h1.trans (mul_le_of_le_one_left (totalViolation_nonneg planar planarBounds st.x) hle)
  have h3 : totalViolation planar planarBounds st.x = 11 := by
    rw [hx]
    norm_num [totalViolation, l1Violation, outside, planar, planarBounds, Fin.sum_univ_two]
  replace h2 : totalViolation planar planarBounds s.x ≤ 11 := h2.trans h3.le
  refine le_trans ?_ h2
  have ho : ∀ lo up z : ℝ, 0 ≤ outside lo up z := fun _ _ _ => add_nonneg (le_max_right _ _) (le_max_right _ _)
  have e : totalViolation planar planarBounds s.x = |s.x 0 + s.x 1 - 1| + 0 + ∑ i, outside (planarBounds.lbx i) (planarBounds.ubx i) (s.x i) := by
    simp [totalViolation, l1Violation, planar]
  have : 0 ≤ ∑ i, outside (planarBounds.lbx i) (planarBounds.ubx i) (s.x i) := Finset.sum_nonneg fun _ _ => ho _ _ _
  show _ ≤ totalViolation planar planarBounds s.x
  linarith

end PolyMPC.Sqp
