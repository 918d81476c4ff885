import Verif.Model.SqpBox
import Verif.Lemmas.SqpSparse
import Verif.Props.BoxAdmm
import Verif.Props.SqpQpFails
import Verif.Props.SqpTheory

/-!
# Properties C193, C194, C195: the SQP solver with its default QP solver

The other theorems on the convergence of SQP assume that the QPs are solved exactly. Here the QP solver is boxADMM, which stops at tolerances or at `max_iter`; nothing is
assumed about its linear solver, its square root or its status. The statements are in terms of the residuals which it reports.
-/

set_option linter.unusedSectionVars false

namespace PolyMPC.BoxAdmm
open Matrix PolyMPC.Spec PolyMPC.QPBase

variable {K : Type*} [Field K] [LinearOrder K] [IsStrictOrderedRing K] {N M : ℕ}
variable {both : Bool} {lin : KktMat K N M → (KktIdx N M → K) → (KktIdx N M → K)} {sq : K → K} {cfg : Settings K}
  {qp : QP K N M} {xg : Fin N → K} {yg : Fin M ⊕ Fin N → K} {old : State K N M}

/-- The interval of the termination test divides the number of iterations; so it does for the default settings. -/
structure CheckedAtEnd (cfg : Settings K) : Prop where
  check : cfg.checkTermination ≠ 0
  one : 1 ≤ cfg.maxIter
  dvd : cfg.checkTermination ∣ cfg.maxIter

theorem adaptRho_residuals (st : State K N M) :
    (adaptRho sq cfg st).info.resPrim = st.info.resPrim ∧ (adaptRho sq cfg st).info.resDual = st.info.resDual := by
  rcases adaptRho_cases sq cfg st with ⟨r, -, -, h⟩ | ⟨r, h⟩ <;> rw [h]
  · exact ⟨rfl, rfl⟩
  · exact ⟨rfl, rfl⟩

/-- C193. Whatever the status, the reported residuals are those of the returned pair, and the multipliers are complementary to the auxiliary vectors. -/
theorem reported_residuals (hd : CheckedAtEnd cfg) (hc : qp.Consistent) (hrho : 0 < cfg.rho) {st : State K N M}
    (h : solve both lin sq cfg qp xg yg old = some st) :
    st.info.resPrim = infNorm (qp.A *ᵥ st.x - st.z) + infNorm (st.x - st.q) ∧
    st.info.resDual = infNorm (qp.lagrangianGradient st.x st.y) ∧
    QP.InNormalCone qp.lower qp.upper st.aux st.y := by
  rcases solve_cases h with ⟨j, s, s', hr, hb, hj, rfl⟩ | ⟨s, hr, rfl⟩
  · have hn := dual_in_normal_cone hc hrho ⟨j, s, rfl, hr, Or.inr hb⟩
    obtain ⟨_, rfl, ht⟩ := brk_spec hb
    exact ⟨rfl, rfl, hn⟩
  · obtain ⟨k, hk⟩ : ∃ k, cfg.maxIter.toNat = k + 1 := ⟨cfg.maxIter.toNat - 1, by have := hd.one; omega⟩
    rw [hk] at hr
    cases hr with
    | @cont _ s0 _ hr hb =>
      have hn := dual_in_normal_cone hc hrho ⟨k, s0, rfl, hr, Or.inl hb⟩
      have hchk : checkNow cfg ((k + 1 : ℕ) : ℤ) = true := by
        have e : ((k + 1 : ℕ) : ℤ) = cfg.maxIter := by have := hd.one; omega
        rw [e]
        unfold checkNow
        rw [Bool.and_eq_true, decide_eq_true_iff, decide_eq_true_iff]
        exact ⟨hd.check, Int.tmod_eq_zero_of_dvd hd.dvd⟩
      have hres : s.info.resPrim = infNorm (qp.A *ᵥ s.x - s.z) + infNorm (s.x - s.q) ∧
          s.info.resDual = infNorm (qp.lagrangianGradient s.x s.y) := by
        rcases body_cases (lin := lin) (sq := sq) (cfg := cfg) (qp := qp) ((k + 1 : ℕ) : ℤ) s0 with
          ⟨s1, hb', -⟩ | ⟨hb', _⟩ | ⟨s2, -, hs2, hb' | ⟨_, _, _, _, hb'⟩⟩
        · rw [hb'] at hb; cases hb
        · rw [hb'] at hb; cases hb
        · rw [hb'] at hb; cases hb
          rw [(hs2 hchk).1]
          exact ⟨rfl, rfl⟩
        · rw [hb'] at hb; cases hb
          obtain ⟨i1, i2⟩ := adaptRho_residuals (sq := sq) (cfg := cfg) s2
          obtain ⟨x1, x2, x3, x4, -⟩ := sameIter_adaptRho (sq := sq) (cfg := cfg) s2
          rw [i1, i2, x1, x2, x3, x4, (hs2 hchk).1]
          exact ⟨rfl, rfl⟩
      exact ⟨hres.1, hres.2, hn⟩

end PolyMPC.BoxAdmm

namespace PolyMPC.Sqp
open Matrix PolyMPC.Spec

variable {n me mi : ℕ}

/-- The iteration that ended in `s` started from `(x0, lam0)`, and the QP solver has returned the step `p` for the QP with the Hessian `H`; the accepted step size
was `a`. -/
structure StepFrom {qps : QPSolver ℝ n (me + mi)} (env : Env ℝ n me mi (identityPrecond ℝ n (me + mi)) qps)
    (s : State ℝ n me mi (identityPrecond ℝ n (me + mi)) qps) (x0 : Fin n → ℝ) (lam0 : Dual ℝ n me mi) (H : Matrix (Fin n) (Fin n) ℝ) (p : Fin n → ℝ) (a : ℝ) :
    Prop where
  qp : ∃ mem it, qps.solve mem (formQP env.bd x0 H (env.prob.costGrad x0) (env.prob.jac x0) (env.prob.constr x0)) = (s.qpMem, p, s.lamK, it)
  size : ∃ c, a = (env.stepSize (env.prob.costGrad x0) s.lamK x0 p c).1
  x : s.x = fun i => x0 i + a * p i
  lam : s.lam = fun i => lam0 i + a * (s.lamK i - lam0 i)
  primal : s.primalNorm = a * infNorm p
  dual : s.dualNorm = a * infNorm (s.lamK - lam0)

theorem stepFrom_qpStep {qps : QPSolver ℝ n (me + mi)} {env : Env ℝ n me mi (identityPrecond ℝ n (me + mi)) qps}
    {q s : State ℝ n me mi (identityPrecond ℝ n (me + mi)) qps} {H : Matrix (Fin n) (Fin n) ℝ}
    (hH : q.qp = formQP env.bd q.x H (env.prob.costGrad q.x) (env.prob.jac q.x) (env.prob.constr q.x)) (h : qpStep env q = some s) :
    ∃ p a, StepFrom env s q.x q.lam H p a := by
  rw [SqpSparse.qpStep_identity env q (r := qps.solve q.qpMem q.qp) rfl] at h
  have h := Option.some.inj h
  have hh : q.qp.h = env.prob.costGrad q.x := by rw [hH]; rfl
  subst h
  rw [hh]
  exact ⟨_, _, ⟨_, _, by rw [← hH]⟩, ⟨_, rfl⟩, rfl, rfl, rfl, rfl⟩

theorem StepFrom.congr {qps : QPSolver ℝ n (me + mi)} {env : Env ℝ n me mi (identityPrecond ℝ n (me + mi)) qps}
    {s t : State ℝ n me mi (identityPrecond ℝ n (me + mi)) qps} {x0 : Fin n → ℝ} {lam0 : Dual ℝ n me mi} {H : Matrix (Fin n) (Fin n) ℝ} {p : Fin n → ℝ} {a : ℝ}
    (h : StepFrom env s x0 lam0 H p a) (e1 : t.x = s.x) (e2 : t.lam = s.lam) (e3 : t.lamK = s.lamK) (e4 : t.primalNorm = s.primalNorm)
    (e5 : t.dualNorm = s.dualNorm) (e6 : t.qpMem = s.qpMem) : StepFrom env t x0 lam0 H p a := by
  obtain ⟨h1, h2, h3, h4, h5, h6⟩ := h
  exact ⟨by rw [e6, e3]; exact h1, by rw [e3]; exact h2, by rw [e1, h3], by rw [e2, e3, h4], by rw [e4, h5], by rw [e5, e3, h6]⟩

theorem callback_qpMem {prec : Precond ℝ n (me + mi)} {qps : QPSolver ℝ n (me + mi)} (env : Env ℝ n me mi prec qps) (s : State ℝ n me mi prec qps) :
    (callback env s).qpMem = s.qpMem := by
  unfold callback
  by_cases h : env.cfg.callback = true
  · rw [if_pos h]
  · rw [if_neg h]

/-- Every iteration is such a step. -/
theorem visited_stepFrom [NeZero n] {qps : QPSolver ℝ n (me + mi)} {env : Env ℝ n me mi (identityPrecond ℝ n (me + mi)) qps}
    {st s : State ℝ n me mi (identityPrecond ℝ n (me + mi)) qps} (h : Visited env st s) :
    ∃ x0 lam0 H p a, From env st s x0 lam0 ∧ StepFrom env s x0 lam0 H p a := by
  cases h with
  | first hp =>
    have hi := (firstPass_spec hp).1
    unfold firstPass at hp
    rw [Option.map_eq_some_iff] at hp
    obtain ⟨s2, h2, rfl⟩ := hp
    obtain ⟨p, a, h3⟩ := stepFrom_qpStep (q := linearise env (start st)) rfl h2
    exact ⟨_, _, _, p, a, Or.inl ⟨hi, rfl, rfl⟩, h3.congr rfl rfl rfl rfl rfl rfl⟩
  | @next v s hv ht hlt hp =>
    have hi := (pass_spec hp).1
    obtain ⟨s1, s2, h1, h2, rfl⟩ := pass_parts hp
    obtain ⟨H, hH, hs1⟩ := updateLinearisation_spec h1
    have e1 : s1.x = v.x := by rw [hs1]
    have e2 : s1.lam = v.lam := by rw [hs1]
    have e3 : s1.qp = formQP env.bd s1.x H (env.prob.costGrad s1.x) (env.prob.jac s1.x) (env.prob.constr s1.x) := by
      rw [hs1]
    obtain ⟨p, a, h3⟩ := stepFrom_qpStep e3 h2
    obtain ⟨c1, c2, c3, c4, c5, c6, c7, c8, c9, c10, -⟩ := callback_fields env s2
    exact ⟨_, _, H, p, a, Or.inr ⟨v, hv, hi.symm, e1, e2⟩, h3.congr c1 c2 c9 c5 c6 (callback_qpMem env s2)⟩

variable {both : Bool} {lin : BoxAdmm.KktMat ℝ n (me + mi) → (BoxAdmm.KktIdx n (me + mi) → ℝ) → (BoxAdmm.KktIdx n (me + mi) → ℝ)} {sq : ℝ → ℝ}
  {qcfg : QPBase.Settings ℝ}

/-- The settings of the QP solver for which the theorems hold; `qpSettings_fine`: the defaults are among them. -/
structure FineSettings (qcfg : QPBase.Settings ℝ) : Prop where
  checked : BoxAdmm.CheckedAtEnd qcfg
  interval : qcfg.adaptiveRho = true → qcfg.adaptiveRhoInterval ≠ 0
  rho : 0 < qcfg.rho

theorem qpSettings_fine : FineSettings qpSettings :=
  ⟨⟨by decide, by decide, by decide⟩, fun _ => by decide, by norm_num [qpSettings]⟩

/-- The lower bounds of the problem do not exceed the upper ones. -/
def Bounds.Ordered (bd : Bounds ℝ n mi) : Prop := (∀ i, bd.lbx i ≤ bd.ubx i) ∧ ∀ i, bd.lbg i ≤ bd.ubg i

theorem formQP_consistent {bd : Bounds ℝ n mi} (hb : bd.Ordered) (x : Fin n → ℝ) (H : Matrix (Fin n) (Fin n) ℝ) (h : Fin n → ℝ)
    (A : Matrix (Fin (me + mi)) (Fin n) ℝ) (b : Fin (me + mi) → ℝ) : (formQP bd x H h A b).Consistent := by
  unfold QP.Consistent
  rw [Sum.forall, Fin.forall_fin_add]
  simp only [QP.lower, QP.upper, Sum.elim_inl, Sum.elim_inr, formQP, Fin.addCases_left, Fin.addCases_right]
  exact ⟨⟨fun i => le_rfl, fun i => by linarith [hb.2 i]⟩, fun i => by linarith [hb.1 i]⟩

/-- The reported residuals of the last call of the QP solver. -/
noncomputable def qpResPrim {prec : Precond ℝ n (me + mi)} (s : State ℝ n me mi prec (SqpSparse.boxQps both lin sq qcfg)) : ℝ :=
  (BoxAdmm.State.info s.qpMem).resPrim
/-- See `qpResPrim`. -/
noncomputable def qpResDual {prec : Precond ℝ n (me + mi)} (s : State ℝ n me mi prec (SqpSparse.boxQps both lin sq qcfg)) : ℝ :=
  (BoxAdmm.State.info s.qpMem).resDual

/-- What the residuals say about the step: `z` is within the bounds of the QP, complementary to the multipliers and not further than the primal residual from the
linearised constraints; the gradient of the Lagrangian of the QP is not larger than the dual residual. -/
theorem stepFrom_residuals (hq : FineSettings qcfg) {env : Env ℝ n me mi (identityPrecond ℝ n (me + mi)) (SqpSparse.boxQps both lin sq qcfg)}
    (hb : env.bd.Ordered) {s : State ℝ n me mi (identityPrecond ℝ n (me + mi)) (SqpSparse.boxQps both lin sq qcfg)} {x0 : Fin n → ℝ} {lam0 : Dual ℝ n me mi}
    {H : Matrix (Fin n) (Fin n) ℝ} {p : Fin n → ℝ} {a : ℝ} (h : StepFrom env s x0 lam0 H p a) :
    ∃ qp, qp = formQP env.bd x0 H (env.prob.costGrad x0) (env.prob.jac x0) (env.prob.constr x0) ∧
      ∃ z, QP.InNormalCone qp.lower qp.upper z s.lamK ∧ infNorm (qp.rows p - z) ≤ qpResPrim s ∧ infNorm (qp.lagrangianGradient p s.lamK) = qpResDual s := by
  refine ⟨_, rfl, ?_⟩
  set qp := formQP env.bd x0 H (env.prob.costGrad x0) (env.prob.jac x0) (env.prob.constr x0) with hqp
  obtain ⟨⟨mem, it, h1⟩, -⟩ := h
  obtain ⟨t, ht⟩ := BoxAdmm.solve_total (both := both) (lin := lin) (sq := sq) (qp := qp) hq.interval 0 0 mem
  simp only [SqpSparse.boxQps] at h1
  rw [← hqp, ht] at h1
  have e1 : t = s.qpMem := congrArg Prod.fst h1
  have e2 : t.x = p := congrArg (fun r => r.2.1) h1
  have e3 : t.y = s.lamK := congrArg (fun r => r.2.2.1) h1
  obtain ⟨r1, r2, r3⟩ := BoxAdmm.reported_residuals hq.checked (formQP_consistent hb _ _ _ _ _) hq.rho ht
  refine ⟨t.aux, by rw [← e3]; exact r3, ?_, ?_⟩
  · rw [← e2]
    refine (BoxAdmm.rows_sub_aux_le qp t).trans ?_
    rw [← r1, e1]; rfl
  · rw [← e2, ← e3, ← r2, e1]; rfl

/-! ## C193 -/

theorem stepFrom_stationary (hq : FineSettings qcfg) {env : Env ℝ n me mi (identityPrecond ℝ n (me + mi)) (SqpSparse.boxQps both lin sq qcfg)}
    (hb : env.bd.Ordered) {s : State ℝ n me mi (identityPrecond ℝ n (me + mi)) (SqpSparse.boxQps both lin sq qcfg)} {x0 : Fin n → ℝ} {lam0 : Dual ℝ n me mi}
    {H : Matrix (Fin n) (Fin n) ℝ} {p : Fin n → ℝ} {a : ℝ} (h : StepFrom env s x0 lam0 H p a) (i : Fin n) :
    |(env.prob.costGrad x0 + (eqRows (env.prob.jac x0))ᵀ *ᵥ lamE s.lamK + (ineqRows (env.prob.jac x0))ᵀ *ᵥ lamI s.lamK + lamX s.lamK) i| ≤
      (∑ j, |H i j|) * infNorm p + qpResDual s := by
  obtain ⟨qp, hqp, z, -, -, hd⟩ := stepFrom_residuals hq hb h
  have hi : |qp.lagrangianGradient p s.lamK i| ≤ qpResDual s := by rw [← hd]; exact le_infNorm _ i
  have hg : (env.prob.costGrad x0 + (eqRows (env.prob.jac x0))ᵀ *ᵥ lamE s.lamK + (ineqRows (env.prob.jac x0))ᵀ *ᵥ lamI s.lamK + lamX s.lamK) i =
      qp.lagrangianGradient p s.lamK i - (H *ᵥ p) i := by
    have hsp := congrFun (split_transpose (env.prob.jac x0) s.lamK) i
    rw [hqp]
    simp only [QP.lagrangianGradient, formQP, Pi.add_apply, QP.yBox] at hsp ⊢
    rw [hsp]
    ring
  have hbd : |(H *ᵥ p) i| ≤ (∑ j, |H i j|) * infNorm p := by
    rw [Finset.sum_mul]
    change |∑ j, H i j * p j| ≤ _
    refine (Finset.abs_sum_le_sum_abs _ _).trans (Finset.sum_le_sum fun j _ => ?_)
    rw [abs_mul]
    exact mul_le_mul_of_nonneg_left (le_infNorm p j) (abs_nonneg _)
  rw [hg]
  have := abs_sub (qp.lagrangianGradient p s.lamK i) ((H *ᵥ p) i)
  linarith

/-- C193. If `solve` with its default QP solver reports SOLVED, then at the iterate `x0` from which the last iteration started and for the multipliers `λ` of the last
QP `α |∇L(x0, λ)| ≤ ‖H‖ eps_prim + α r_d`, where `α` is the last step size, `H` the Hessian of the last QP and `r_d` the dual residual the QP solver reports for it. The
constraints linearised at `x0` are met by the step up to the reported primal residual, and `λ` is complementary to them up to this residual. This holds whether the QP
solver reports SOLVED or not; that `r_d` is small is not checked. -/
theorem solved_certificate [NeZero n] (hq : FineSettings qcfg) {env : Env ℝ n me mi (identityPrecond ℝ n (me + mi)) (SqpSparse.boxQps both lin sq qcfg)}
    (hb : env.bd.Ordered) (hα : ∀ h l x p c, 0 ≤ (env.stepSize h l x p c).1)
    {st r : State ℝ n me mi (identityPrecond ℝ n (me + mi)) (SqpSparse.boxQps both lin sq qcfg)} (h : solve env st = some r) (hs : r.status = .SOLVED) :
    ∃ x0 lam0 H p α, From env st r x0 lam0 ∧ 0 ≤ α ∧ r.x = (fun i => x0 i + α * p i) ∧ r.lam = (fun i => lam0 i + α * (r.lamK i - lam0 i)) ∧
      (∀ i, α * |(env.prob.costGrad x0 + (eqRows (env.prob.jac x0))ᵀ *ᵥ lamE r.lamK + (ineqRows (env.prob.jac x0))ᵀ *ᵥ lamI r.lamK + lamX r.lamK) i| ≤
        (∑ j, |H i j|) * env.cfg.epsPrim + α * qpResDual r) ∧
      ∀ qp, qp = formQP env.bd x0 H (env.prob.costGrad x0) (env.prob.jac x0) (env.prob.constr x0) → ∀ i,
        (qp.lower i - qpResPrim r ≤ qp.rows p i ∧ qp.rows p i ≤ qp.upper i + qpResPrim r) ∧
        (0 < r.lamK i → qp.upper i - qpResPrim r ≤ qp.rows p i) ∧ (r.lamK i < 0 → qp.rows p i ≤ qp.lower i + qpResPrim r) := by
  obtain ⟨n1, -, -⟩ := (solve_control_flow h).2.2.1.mp hs
  obtain ⟨s, hv, hor⟩ := solve_cases h
  have hrs : r.x = s.x ∧ r.lam = s.lam ∧ r.lamK = s.lamK ∧ r.primalNorm = s.primalNorm ∧ r.dualNorm = s.dualNorm ∧ r.qpMem = s.qpMem ∧ r.iter = s.iter := by
    rcases hor with ⟨-, rfl⟩ | ⟨-, -, rfl⟩ <;> exact ⟨rfl, rfl, rfl, rfl, rfl, rfl, rfl⟩
  obtain ⟨r1, r2, r3, r4, r5, r6, r7⟩ := hrs
  obtain ⟨x0, lam0, H, p, α, hf, hst⟩ := visited_stepFrom hv
  have hst := hst.congr r1 r2 r3 r4 r5 r6
  have hα0 : 0 ≤ α := by obtain ⟨c, hc⟩ := hst.size; rw [hc]; exact hα _ _ _ _ _
  refine ⟨x0, lam0, H, p, α, ?_, hα0, hst.x, hst.lam, fun i => ?_, ?_⟩
  · unfold From at hf ⊢; rwa [r7]
  · have h1 := mul_le_mul_of_nonneg_left (stepFrom_stationary hq hb hst i) hα0
    have h2 : α * infNorm p ≤ env.cfg.epsPrim := by rw [← hst.primal]; exact n1
    have h3 := mul_le_mul_of_nonneg_left h2 (Finset.sum_nonneg fun j _ => abs_nonneg _ : 0 ≤ ∑ j, |H i j|)
    linarith
  · intro qp hqp i
    obtain ⟨qp', rfl, z, hz, hp, -⟩ := stepFrom_residuals hq hb hst
    rw [← hqp] at hz hp
    have h1 := abs_le.mp ((le_infNorm _ i).trans hp)
    rw [Pi.sub_apply] at h1
    obtain ⟨⟨a1, a2⟩, a3, a4⟩ := hz i
    refine ⟨⟨by linarith [h1.1], by linarith [h1.2]⟩, fun hy => ?_, fun hy => ?_⟩
    · rw [← a3 hy]; linarith [h1.1]
    · rw [← a4 hy]; linarith [h1.2]

/-! ## C194 -/

/-- C194. With the default QP solver all iterates satisfy the bounds of the variables up to `δ`, if the guess does and the QP solver has reported a primal residual of at
most `δ` for all QPs; it need not have reported SOLVED. -/
theorem iterates_near_box [NeZero n] (hq : FineSettings qcfg) {env : Env ℝ n me mi (identityPrecond ℝ n (me + mi)) (SqpSparse.boxQps both lin sq qcfg)}
    (hb : env.bd.Ordered) (hα : ∀ h l x p c, 0 ≤ (env.stepSize h l x p c).1 ∧ (env.stepSize h l x p c).1 ≤ 1) {δ : ℝ}
    {st : State ℝ n me mi (identityPrecond ℝ n (me + mi)) (SqpSparse.boxQps both lin sq qcfg)}
    (h0 : ∀ i, env.bd.lbx i - δ ≤ st.x i ∧ st.x i ≤ env.bd.ubx i + δ) (hres : ∀ v, Visited env st v → qpResPrim v ≤ δ)
    {s : State ℝ n me mi (identityPrecond ℝ n (me + mi)) (SqpSparse.boxQps both lin sq qcfg)} (h : Visited env st s) :
    ∀ i, env.bd.lbx i - δ ≤ s.x i ∧ s.x i ≤ env.bd.ubx i + δ := by
  have key : ∀ k : ℕ, ∀ s, Visited env st s → s.iter ≤ k → ∀ i, env.bd.lbx i - δ ≤ s.x i ∧ s.x i ≤ env.bd.ubx i + δ := by
    intro k
    induction k with
    | zero =>
      intro s hs hk
      have := (visited_facts hs).1
      omega
    | succ k ih =>
      intro s hs hk i
      obtain ⟨x0, lam0, H, p, a, hf, hst⟩ := visited_stepFrom hs
      have hx0 : env.bd.lbx i - δ ≤ x0 i ∧ x0 i ≤ env.bd.ubx i + δ := by
        rcases hf with ⟨-, rfl, -⟩ | ⟨v, hv, hvi, rfl, -⟩
        · exact h0 i
        · exact ih v hv (by push_cast at hk; omega) i
      obtain ⟨qp, rfl, z, hz, hp, -⟩ := stepFrom_residuals hq hb hst
      have h1 := abs_le.mp (((le_infNorm _ (Sum.inr i)).trans hp).trans (hres s hs))
      obtain ⟨⟨a1, a2⟩, -⟩ := hz (Sum.inr i)
      simp only [Pi.sub_apply, QP.rows, QP.lower, QP.upper, Sum.elim_inr, formQP] at h1 a1 a2
      obtain ⟨b0, b1⟩ : 0 ≤ a ∧ a ≤ 1 := by obtain ⟨c, hc⟩ := hst.size; rw [hc]; exact hα _ _ _ _ _
      rw [hst.x]
      show env.bd.lbx i - δ ≤ x0 i + a * p i ∧ x0 i + a * p i ≤ env.bd.ubx i + δ
      constructor
      · nlinarith [mul_le_mul_of_nonneg_left (by linarith [h1.1] : env.bd.lbx i - x0 i - δ ≤ p i) b0, hx0.1, mul_nonneg (sub_nonneg.mpr b1) (sub_nonneg.mpr hx0.1)]
      · nlinarith [mul_le_mul_of_nonneg_left (by linarith [h1.2] : p i ≤ env.bd.ubx i - x0 i + δ) b0, hx0.2, mul_nonneg (sub_nonneg.mpr b1) (sub_nonneg.mpr hx0.2)]
  exact key s.iter.toNat s h (Int.self_le_toNat _)

/-! ## C195 -/

/-- The multipliers against a point of the bounds to which they are complementary. -/
theorem cone_sum {bd : Bounds ℝ n mi} {x : Fin n → ℝ} {H : Matrix (Fin n) (Fin n) ℝ} {h : Fin n → ℝ}
    {A : Matrix (Fin (me + mi)) (Fin n) ℝ} {b : Fin (me + mi) → ℝ} {z y : Dual ℝ n me mi}
    (hcone : QP.InNormalCone (formQP bd x H h A b).lower (formQP bd x H h A b).upper z y) :
    -(infNorm y * l1Violation (fun i => b (Fin.castAdd mi i)) (fun i => b (Fin.natAdd me i)) bd.lbg bd.ubg x bd.lbx bd.ubx) ≤ z ⬝ᵥ y := by
  unfold dotProduct
  rw [Fintype.sum_sum_type, Fin.sum_univ_add]
  have t1 : -(infNorm y * ∑ i, |b (Fin.castAdd mi i)|) ≤ ∑ i : Fin me, z (Sum.inl (Fin.castAdd mi i)) * y (Sum.inl (Fin.castAdd mi i)) := by
    rw [Finset.mul_sum, ← Finset.sum_neg_distrib]
    refine Finset.sum_le_sum fun i _ => ?_
    obtain ⟨⟨a1, a2⟩, -, -⟩ := hcone (Sum.inl (Fin.castAdd mi i))
    simp only [QP.lower, QP.upper, Sum.elim_inl, formQP, Fin.addCases_left] at a1 a2
    have e : z (Sum.inl (Fin.castAdd mi i)) = -b (Fin.castAdd mi i) := le_antisymm a2 a1
    rw [e, neg_mul, neg_le_neg_iff]
    refine (le_abs_self _).trans ?_
    rw [abs_mul, mul_comm]
    exact mul_le_mul_of_nonneg_right (le_infNorm y _) (abs_nonneg _)
  have t2 : -(infNorm y * ∑ i, outside (bd.lbg i) (bd.ubg i) (b (Fin.natAdd me i))) ≤ ∑ i : Fin mi,
      z (Sum.inl (Fin.natAdd me i)) * y (Sum.inl (Fin.natAdd me i)) := by
    rw [Finset.mul_sum, ← Finset.sum_neg_distrib]
    refine Finset.sum_le_sum fun i _ => ?_
    obtain ⟨⟨a1, a2⟩, a3, a4⟩ := hcone (Sum.inl (Fin.natAdd me i))
    have el : (formQP bd x H h A b).lower (Sum.inl (Fin.natAdd me i)) = -b (Fin.natAdd me i) + bd.lbg i := by
      simp [QP.lower, formQP]
    have eu : (formQP bd x H h A b).upper (Sum.inl (Fin.natAdd me i)) = -b (Fin.natAdd me i) + bd.ubg i := by
      simp [QP.upper, formQP]
    rw [el] at a1 a4
    rw [eu] at a2 a3
    refine cone_term (fun hp => ?_) (fun hp => ?_) (le_infNorm y _)
    · rw [a3 hp]; ring
    · rw [a4 hp]; ring
  have t3 : -(infNorm y * ∑ i, outside (bd.lbx i) (bd.ubx i) (x i)) ≤ ∑ i : Fin n, z (Sum.inr i) * y (Sum.inr i) := by
    rw [Finset.mul_sum, ← Finset.sum_neg_distrib]
    refine Finset.sum_le_sum fun i _ => ?_
    obtain ⟨-, a3, a4⟩ := hcone (Sum.inr i)
    exact cone_term a3 a4 (le_infNorm y _)
  unfold l1Violation
  linarith

/-- C195. The slope of the merit function for an inexact solution of the QP. -/
theorem slope_le_inexact {bd : Bounds ℝ n mi} {x : Fin n → ℝ} {H : Matrix (Fin n) (Fin n) ℝ} {h : Fin n → ℝ}
    {A : Matrix (Fin (me + mi)) (Fin n) ℝ} {b : Fin (me + mi) → ℝ} {p : Fin n → ℝ} {z y : Dual ℝ n me mi}
    (hcone : QP.InNormalCone (formQP bd x H h A b).lower (formQP bd x H h A b).upper z y) :
    h ⬝ᵥ p - infNorm y * l1Violation (fun i => b (Fin.castAdd mi i)) (fun i => b (Fin.natAdd me i)) bd.lbg bd.ubg x bd.lbx bd.ubx ≤
      -(p ⬝ᵥ H *ᵥ p) + infNorm ((formQP bd x H h A b).lagrangianGradient p y) * oneNorm p + infNorm ((formQP bd x H h A b).rows p - z) * oneNorm y := by
  set qp := formQP bd x H h A b with hqp
  have h1 := cone_sum hcone
  have h2 : qp.lagrangianGradient p y ⬝ᵥ p ≤ infNorm (qp.lagrangianGradient p y) * oneNorm p := (abs_le.mp (abs_sum_mul_le (qp.lagrangianGradient p y) p)).2
  have h3 : -(infNorm (qp.rows p - z) * oneNorm y) ≤ (qp.rows p - z) ⬝ᵥ y := (abs_le.mp (abs_sum_mul_le (qp.rows p - z) y)).1
  rw [sub_dotProduct] at h3
  have h4 : qp.lagrangianGradient p y ⬝ᵥ p = p ⬝ᵥ H *ᵥ p + h ⬝ᵥ p + qp.rows p ⬝ᵥ y := by
    rw [QP.lagrangianGradient_eq, add_dotProduct, QP.adjoint_dot, add_dotProduct, dotProduct_comm (qp.H *ᵥ p) p, dotProduct_comm y]
    rfl
  linarith

/-- C195. An accepted step of an iteration with the default QP solver decreases the merit function by at least `α η (pᵀHp + μ ε - r_d ‖p‖₁ - r_p ‖λ‖₁)`, where
`(p, λ)` is what the QP solver has returned, `r_p`, `r_d` are the residuals it reports and `μ = ‖λ‖∞`. -/
theorem accepted_step_inexact [NeZero n] (hq : FineSettings qcfg) {eps : ℝ} {cfg : Settings ℝ} (heta : 0 ≤ cfg.eta) (htau : 0 < cfg.tau)
    {prob : Problem ℝ n me mi} (hc : Coherent prob) {bd : Bounds ℝ n mi} (hb : bd.Ordered)
    {st s : State ℝ n me mi (identityPrecond ℝ n (me + mi)) (SqpSparse.boxQps both lin sq qcfg)} (hv : Visited (boxEnv both lin sq qcfg eps cfg prob bd) st s) :
    ∃ x0 lam0 H p α, From (boxEnv both lin sq qcfg eps cfg prob bd) st s x0 lam0 ∧ s.x = (fun i => x0 i + α * p i) ∧ s.primalNorm = α * infNorm p ∧
      (cfg.tau < 1 ∧ cfg.tau ^ (cfg.lineSearchMaxIter - 1).toNat < α →
        merit eps (infNorm s.lamK) prob bd s.x ≤ merit eps (infNorm s.lamK) prob bd x0 -
          α * cfg.eta * (p ⬝ᵥ H *ᵥ p + infNorm s.lamK * eps - qpResDual s * oneNorm p - qpResPrim s * oneNorm s.lamK)) := by
  obtain ⟨x0, lam0, H, p, α, hf, hst⟩ := visited_stepFrom hv
  refine ⟨x0, lam0, H, p, α, hf, hst.x, hst.primal, fun hacc => ?_⟩
  obtain ⟨logged, hα⟩ := hst.size
  change α = (lineSearch eps cfg prob bd (prob.costGrad x0) s.lamK x0 p logged).1 at hα
  obtain ⟨k, -, h1, h2, -⟩ := lineSearch_spec eps cfg prob bd (prob.costGrad x0) s.lamK x0 p logged
  rw [← hα] at h1
  have hk' : (k : ℤ) < cfg.lineSearchMaxIter - 1 := by
    have : k < (cfg.lineSearchMaxIter - 1).toNat := by
      by_contra hge
      have := pow_le_pow_of_le_one htau.le hacc.1.le (not_lt.mp hge)
      rw [h1] at hacc
      exact absurd hacc.2 (not_lt.mpr this)
    omega
  have harm := h2 hk'
  rw [← h1] at harm
  unfold Armijo at harm
  obtain ⟨qp, rfl, z, hz, hp, hd⟩ := stepFrom_residuals hq hb hst
  have hs := slope_le_inexact (p := p) hz
  have e1 : (fun i => (boxEnv both lin sq qcfg eps cfg prob bd).prob.constr x0 (Fin.castAdd mi i)) = prob.eq x0 := funext (hc x0).1
  have e2 : (fun i => (boxEnv both lin sq qcfg eps cfg prob bd).prob.constr x0 (Fin.natAdd me i)) = prob.ineq x0 := funext (hc x0).2
  rw [e1, e2, hd] at hs
  have hs' := hs.trans (add_le_add_right (mul_le_mul_of_nonneg_right hp (oneNorm_nonneg s.lamK)) _)
  have hα0 : 0 ≤ α := by rw [h1]; exact (pow_pos htau k).le
  have := mul_le_mul_of_nonneg_left hs' (mul_nonneg hα0 heta)
  rw [hst.x]
  change _ * (prob.costGrad x0 ⬝ᵥ p - infNorm s.lamK * l1Violation (prob.eq x0) (prob.ineq x0) bd.lbg bd.ubg x0 bd.lbx bd.ubx) ≤ _ at this
  linarith

/-! ## Example -/

/-- The run of `Props/SqpQpFails.lean` from the guess 11 satisfies the assumptions of C193, C194 and C195. -/
example {lin : BoxAdmm.KktMat ℝ 1 (0 + 1) → (BoxAdmm.KktIdx 1 (0 + 1) → ℝ) → (BoxAdmm.KktIdx 1 (0 + 1) → ℝ)} (hex : BoxAdmm.ExactSolver both lin) (eps : ℝ)
    (st : State ℝ 1 0 1 (identityPrecond ℝ 1 (0 + 1)) (SqpSparse.boxQps both lin sq qpSettings)) (ho : BoxAdmm.CleanCorner (BoxAdmm.State.kkt st.qpMem)) :
    QpFails.bd.Ordered ∧ Coherent QpFails.prob ∧ (0 : ℝ) < (Settings.default : Settings ℝ).tau ∧ (Settings.default : Settings ℝ).tau < 1 ∧
    (∀ h l x p c, 0 ≤ ((boxEnv both lin sq qpSettings eps Settings.default QpFails.prob QpFails.bd).stepSize h l x p c).1 ∧
      ((boxEnv both lin sq qpSettings eps Settings.default QpFails.prob QpFails.bd).stepSize h l x p c).1 ≤ 1) ∧
    ∃ r, solveFrom (boxEnv both lin sq qpSettings eps Settings.default QpFails.prob QpFails.bd) st (fun _ => 11) 0 = some r ∧ r.status = .SOLVED := by
  have h1 : (0 : ℝ) < (Settings.default : Settings ℝ).tau := by norm_num [Settings.default]
  have h2 : (Settings.default : Settings ℝ).tau < 1 := by norm_num [Settings.default]
  refine ⟨⟨fun i => by norm_num [QpFails.bd], fun i => by norm_num [QpFails.bd]⟩, fun x => ⟨fun i => i.elim0, fun i => rfl⟩, h1, h2, fun h l x p c => ?_, ?_⟩
  · have := lineSearch_range (eps := eps) h1 h2.le QpFails.prob QpFails.bd h l x p c
    exact ⟨this.1.le, this.2⟩
  · obtain ⟨⟨r, h3, h4, -⟩, -⟩ := QpFails.guess_eleven (sq := sq) hex eps st ho
    exact ⟨r, h3, h4⟩

end PolyMPC.Sqp
