import Verif.Props.MpcLinear

/-!
# Starting from a solution (C169)
-/

set_option linter.unusedSectionVars false
set_option linter.unusedVariables false

namespace PolyMPC.Sqp
open Spec QuasiNewton Matrix

variable {K : Type} [Field K] [LinearOrder K] [IsStrictOrderedRing K] {n me mi : ℕ}
variable {prec : Precond K n (me + mi)} {qps : QPSolver K n (me + mi)}

/-- **C169.** Started at a stationary point with its multipliers, if these are unique, the Hessian used is positive definite and the QP solver exact, `solve` reports `SOLVED`
after one iteration and returns its guesses unchanged, with any Hessian update and step size. -/
theorem restart [NeZero n] {env : Env K n me mi prec qps} (hl : LawfulPrecond prec) (hpd : ∀ m qp, ∃ r, prec.compute m qp = some r) (hex : ExactQP qps)
    (hc : Coherent env.prob) (hp : 0 ≤ env.cfg.epsPrim) (hd : 0 ≤ env.cfg.epsDual) {st : State K n me mi prec qps}
    (h0 : SPD (env.regularise (env.prob.lagHess st.x st.lam))) (hs : Stationary env.prob env.bd st.x st.lam)
    (hu : ∀ y, Stationary env.prob env.bd st.x y → y = st.lam) :
    ∃ r, solve env st = some r ∧ r.status = .SOLVED ∧ r.iter = 1 ∧ r.x = st.x ∧ r.lam = st.lam ∧ r.lamK = st.lam := by
  obtain ⟨c, hcm⟩ := hpd (linearise env (Sqp.start st)).precMem (linearise env (Sqp.start st)).qp
  obtain ⟨s1, h1⟩ : ∃ s1, qpStep env (linearise env (Sqp.start st)) = some s1 := ⟨_, by rw [qpStep, hcm]; rfl⟩
  have hf : firstPass env st = some (measure env s1) := by rw [firstPass, h1]; rfl
  have hqp : (linearise env (Sqp.start st)).qp = formQP env.bd st.x (env.regularise (env.prob.lagHess st.x st.lam)) (env.prob.costGrad st.x) (env.prob.jac st.x)
    (env.prob.constr st.x) := rfl
  have hx : (linearise env (Sqp.start st)).x = st.x := rfl
  have hlm : (linearise env (Sqp.start st)).lam = st.lam := rfl
  have hk : (linearise env (Sqp.start st)).qp.KKT 0 st.lam := (zero_step_iff_stationary hc _ _ _ _).2 hs
  obtain ⟨p, k1, k2, k3, k4, k5, k6⟩ := qpStep_exact hl hex h1 h0 ⟨_, _, hk⟩
  have hp0 : p = 0 := kkt_primal_unique h0 k1 hk
  subst hp0
  have hlk : s1.lamK = st.lam := hu _ ((zero_step_iff_stationary hc _ _ _ _).1 k1)
  obtain ⟨_, _, p', lamK', α', _, -, -, -, -, m5, -, -, -, -, -, m9, -⟩ := qpStep_spec h1
  have e1 : s1.x = st.x := by
    rw [k3, hx]; funext i
    show st.x i + _ * (0 : K) = st.x i
    ring
  have e2 : s1.lam = st.lam := by
    rw [k5, hlk, hlm]; funext i
    ring
  have t1 : (measure env s1).primalNorm = 0 := by
    show s1.primalNorm = 0
    rw [k6, norm_zero', mul_zero]
  have t2 : (measure env s1).dualNorm = 0 := by
    show s1.dualNorm = 0
    rw [m9, ← m5, hlk, hlm, sub_self, norm_zero', mul_zero]
  have t3 : (measure env s1).maxViolation ≤ 0 := by
    show maxConstraintsViolation env.prob env.bd s1.x ≤ 0
    rw [maxViolation_le_iff, e1]
    obtain ⟨f1, f2, f3⟩ := hs.2.1
    exact ⟨le_refl _, fun i => by rw [f1 i, abs_zero], fun i => ⟨by linarith [(f2 i).1], by linarith [(f2 i).2]⟩, fun i => ⟨by linarith [(f3 i).1], by linarith [(f3 i).2]⟩⟩
  have ht : terminated env (measure env s1) = true := by
    unfold terminated
    rw [t1, t2]
    simp only [Bool.and_eq_true, decide_eq_true_eq]
    exact ⟨⟨hp, hd⟩, t3.trans hp⟩
  refine ⟨{ measure env s1 with status := .SOLVED }, ?_, rfl, (firstPass_spec hf).1, e1, e2, hlk⟩
  rw [solve_eq, hf, Option.bind_some, if_pos ht]

end PolyMPC.Sqp

namespace PolyMPC.MpcSqp
open Ocp Mpc Spec QuasiNewton
open Matrix hiding ext
open AD hiding Dual

variable {d : Dims}
variable {A : Approx ℝ} {cb : Cbs d ℝ} {o o' : Obj d ℝ} {f g : ℕ → ℕ → (Fin d.M → ℝ) → ℝ} {L : ℕ → (Fin d.M → ℝ) → ℝ} {m : (Fin d.M → ℝ) → ℝ} {sc : Scratch d}

/-- **C169.** The order of the multipliers: the gradient of the Lagrangian that the transcription returns to the solver is the cost gradient plus the transposed Jacobian times the
multipliers of the constraints plus the multipliers of the bounds. -/
theorem lagGrad_eq (hS : 1 ≤ d.S) (hN : 1 ≤ d.N) (hsk : SkewEnds d A) (h : Exact cb o.time f g L m) (x : Fin d.VAR → ℝ) (lam : Sqp.Dual ℝ d.VAR d.NEQ d.NINEQ) :
    (problem A cb o sc).lagGrad x lam
      = (problem A cb o sc).costGrad x + ((problem A cb o sc).jac x)ᵀ *ᵥ (fun i => lam (Sum.inl i)) + fun i => lam (Sum.inr i) := by
  obtain ⟨p1, p2, p3⟩ := problem_parts (sc := sc) hS hN hsk h x
  refine gradient_unique (p2 lam) ?_
  have g1 := IsGradient.sum' Finset.univ fun (i : Fin (d.NEQ + d.NINEQ)) _ => IsGradient.smul' (lam (Sum.inl i)) (p3 i).2
  have g2 := IsGradient.sum' Finset.univ fun (i : Fin d.VAR) _ => IsGradient.smul' (lam (Sum.inr i)) (Nlp.isGradient_coord i x)
  have g3 := IsGradient.add' p1 (IsGradient.add' g1 g2)
  have e1 : (fun z : Fin d.VAR → ℝ => lagrangian d A cb o sc.junk (ext z) (ofDual lam) sc.c0) = fun z => (problem A cb o sc).cost z +
      (∑ i : Fin (d.NEQ + d.NINEQ), lam (Sum.inl i) * constraints d A cb o sc.junk (ext z) sc.c0 i + ∑ i : Fin d.VAR, lam (Sum.inr i) * z i) := by
    funext z
    unfold lagrangian
    dsimp only
    rw [Finset.sum_range, Finset.sum_range]
    congr 2
    · refine Finset.sum_congr rfl fun i _ => ?_
      rw [mul_comm]
      unfold ofDual
      rw [dif_pos i.2]
    · refine Finset.sum_congr rfl fun i _ => ?_
      rw [mul_comm]
      unfold ofDual ext
      rw [dif_neg (by omega), dif_pos (by omega), dif_pos i.2]
      congr 3
      exact Fin.ext (Nat.add_sub_cancel_left ..)
  have e2 : (fun c => (problem A cb o sc).costGrad x c + (∑ i : Fin (d.NEQ + d.NINEQ), lam (Sum.inl i) * (problem A cb o sc).jac x i c
      + ∑ i : Fin d.VAR, lam (Sum.inr i) * (if c = i then 1 else 0)))
      = (problem A cb o sc).costGrad x + ((problem A cb o sc).jac x)ᵀ *ᵥ (fun i => lam (Sum.inl i)) + fun i => lam (Sum.inr i) := by
    funext c
    rw [Pi.add_apply, Pi.add_apply, add_assoc]
    congr 2
    · unfold mulVec dotProduct
      beta_reduce
      exact Finset.sum_congr rfl fun i _ => by rw [transpose_apply, mul_comm]
    · simp
  rw [e1, ← e2]
  exact g3

theorem problem_coherent (hS : 1 ≤ d.S) (hN : 1 ≤ d.N) (hsk : SkewEnds d A) (h : Exact cb o.time f g L m) : Sqp.Coherent (problem A cb o sc) := by
  intro x
  obtain ⟨-, -, p3⟩ := problem_parts (sc := sc) hS hN hsk h x
  refine ⟨fun i => ?_, fun i => ?_⟩
  · rw [(p3 _).1]
    exact constraints_eq_part d A cb o sc.junk (ext x) sc.c0 i.2
  · rw [(p3 _).1]
    obtain ⟨c0', e1⟩ := constraints_ineq_part d A cb o sc.junk (ext x) sc.c0 i.2
    exact e1.trans (ineq_c0 h _ _ _ i.2)

variable {prec : Sqp.Precond ℝ d.VAR (d.NEQ + d.NINEQ)} {qps : Sqp.QPSolver ℝ d.VAR (d.NEQ + d.NINEQ)}

/-- **C169.** The next solve starts from the point and the multipliers at which the last one ended. -/
theorem start_finish (w : Wrap d ℝ) (r s : Sqp.State ℝ d.VAR d.NEQ d.NINEQ prec qps) : (start (finish w r) s).x = r.x ∧ (start (finish w r) s).lam = r.lam := by
  refine ⟨funext fun i => ?_, funext fun i => ?_⟩
  · show ext r.x i = r.x i
    unfold ext
    rw [dif_pos i.2]
  · rcases i with i | i
    · show ofDual r.lam i = _
      unfold ofDual
      rw [dif_pos i.2]
    · show ofDual r.lam (d.NEQ + d.NINEQ + i) = _
      unfold ofDual
      rw [dif_neg (by omega), dif_pos (by omega)]
      congr 2
      exact Fin.ext (Nat.add_sub_cancel_left ..)

/-- **C169.** A wrapper that holds a trajectory and multipliers which satisfy the optimality conditions of its problem, the multipliers being unique there: `solve` reports `SOLVED`
after one iteration, and the trajectory and the multipliers that the getters return are the ones it held, for any nonlinear problem whose Hessian, as used by the solver, is
positive definite there. -/
theorem solved_wrapper_kept [NeZero d.VAR] (hS : 1 ≤ d.S) (hN : 1 ≤ d.N) (hsk : SkewEnds d A) (w : Wrap d ℝ) (h : Exact cb w.ocp.time f g L m)
    {env : Sqp.Env ℝ d.VAR d.NEQ d.NINEQ prec qps} (hpr : env.prob = problem A cb w.ocp sc) (hb : env.bd = bounds w)
    (hl : Sqp.LawfulPrecond prec) (hpd : ∀ m qp, ∃ r, prec.compute m qp = some r) (hex : Sqp.ExactQP qps) (hp : 0 ≤ env.cfg.epsPrim) (hd : 0 ≤ env.cfg.epsDual)
    (h0 : SPD (env.regularise (env.prob.lagHess (fun i => w.x i) (toDual d w.lam))))
    (hs : Sqp.Stationary env.prob env.bd (fun i => w.x i) (toDual d w.lam))
    (hu : ∀ y, Sqp.Stationary env.prob env.bd (fun i => w.x i) y → y = toDual d w.lam) (s : Sqp.State ℝ d.VAR d.NEQ d.NINEQ prec qps) :
    ∃ r, Sqp.solve env (start w s) = some r ∧ r.status = .SOLVED ∧ r.iter = 1 ∧
      (∀ i < d.VAR, solutionX (finish w r) i = solutionX w i) ∧ ∀ i < d.NEQ + d.NINEQ + d.VAR, solutionDual (finish w r) i = solutionDual w i := by
  obtain ⟨r, h1, h2, h3, h4, h5, -⟩ := Sqp.restart hl hpd hex (hpr ▸ problem_coherent (sc := sc) hS hN hsk h) hp hd (st := start w s) h0 hs hu
  refine ⟨r, h1, h2, h3, fun i hi => ?_, fun i hi => ?_⟩
  · show ext r.x i = w.x i
    unfold ext
    rw [dif_pos hi, h4]
    rfl
  · show ofDual r.lam i = w.lam i
    rw [h5]
    show ofDual (toDual d w.lam) i = w.lam i
    unfold ofDual toDual
    split_ifs with c1 c2
    · rfl
    · show w.lam (d.NEQ + d.NINEQ + (i - (d.NEQ + d.NINEQ))) = _
      rw [Nat.add_sub_cancel' (by omega)]
    · omega

/-- **C169.** Linear-quadratic control: a second `solve` right after the one of C165, with the same data, stops after one iteration and returns the same trajectory and multipliers. -/
theorem linQuad_again [NeZero d.VAR] (hS : 1 ≤ d.S) (hN : 1 ≤ d.N) (hP : d.NP = 0) (hU : d.NU ≤ d.NX) (hVX : d.NX ≤ d.VARU ∨ d.NU = 0) (w : Wrap d ℝ)
    (ht : w.ocp.tStart < w.ocp.tStop) (h : Exact cb w.ocp.time f g L m) (hq : LinQuad d f g L m)
    {eps : ℝ} (heps : 0 < eps) {cfg : Sqp.Settings ℝ} (he : cfg.eta ≤ 1 / 2) (hmax : 2 ≤ cfg.maxIter) (hp : 0 ≤ cfg.epsPrim) (hd : 0 ≤ cfg.epsDual)
    (hl : Sqp.LawfulPrecond prec) (hpd : ∀ m qp, ∃ r, prec.compute m qp = some r) (hex : Sqp.ExactQP qps)
    {xs : Fin d.VAR → ℝ} {ys : Sqp.Dual ℝ d.VAR d.NEQ d.NINEQ} (hs : Sqp.Stationary (problem (chebApprox d.N) cb w.ocp sc) (bounds w) xs ys)
    (hu : ∀ y, Sqp.Stationary (problem (chebApprox d.N) cb w.ocp sc) (bounds w) xs y → y = ys) (s : Sqp.State ℝ d.VAR d.NEQ d.NINEQ prec qps)
    {δ : Fin d.VAR → ℝ} (hδ : ∀ i, δ i = xs i - w.x i)
    (hgap : cfg.eta * infNorm ys * eps ≤ (1 / 2 - cfg.eta) * ((problem (chebApprox d.N) cb w.ocp sc).cost δ + (problem (chebApprox d.N) cb w.ocp sc).cost (-δ)
      - 2 * (problem (chebApprox d.N) cb w.ocp sc).cost 0)) :
    ∃ r r', Sqp.solve (Sqp.defaultEnv eps cfg (problem (chebApprox d.N) cb w.ocp sc) (bounds w)) (start w s) = some r ∧ r.status = .SOLVED ∧
      Sqp.solve (Sqp.defaultEnv eps cfg (problem (chebApprox d.N) cb w.ocp sc) (bounds (finish w r))) (start (finish w r) r) = some r' ∧ r'.status = .SOLVED ∧
      r'.iter = 1 ∧ solutionX (finish (finish w r) r') = solutionX (finish w r) ∧ solutionDual (finish (finish w r) r') = solutionDual (finish w r) := by
  obtain ⟨r, h1, h2, h3, h4, h5, -⟩ := linQuad_solved hS hN hP hU hVX w ht h hq heps he hmax hp hd hl hpd hex hs hu s hδ hgap
  have hx : r.x = xs := by
    funext i
    rw [← h4 i]
    show _ = ext r.x i
    unfold ext; rw [dif_pos i.2]
  obtain ⟨Q, q, c, B, b, hSPD, hQP⟩ := linQuad_isQP (sc := sc) hS hN (cheb_skew d hN)
    (fun j hj => by rw [cheb_w d.N ⟨j, by omega⟩]; exact Cheb.intWeights_pos hN _) hP hU hVX ht h hq
  obtain ⟨e1, e2⟩ := start_finish w r r
  have e3 : bounds (finish w r) = bounds w := rfl
  obtain ⟨r', g1, g2, g3, g4, g5, -⟩ := Sqp.restart (env := Sqp.defaultEnv eps cfg (problem (chebApprox d.N) cb w.ocp sc) (bounds (finish w r))) hl hpd hex
    (problem_coherent (sc := sc) hS hN (cheb_skew d hN) h) hp hd (st := start (finish w r) r)
    (by show SPD ((problem (chebApprox d.N) cb w.ocp sc).lagHess _ _); rw [hQP.hess]; exact hSPD)
    (by rw [e1, e2, hx, h5]; exact hs) (by rw [e1, e2, hx, h5]; exact hu)
  refine ⟨r, r', h1, h2, g1, g2, g3, ?_, ?_⟩
  · show ext r'.x = ext r.x
    rw [g4, e1]
  · show ofDual r'.lam = ofDual r.lam
    rw [g5, e2]

/-- Non-vacuity: the example of C165, given its solution and multipliers as guesses, with a preconditioner that does nothing and any exact QP solver. -/
example {qps : Sqp.QPSolver ℝ lqDims.VAR (lqDims.NEQ + lqDims.NINEQ)} (hex : Sqp.ExactQP qps) (sc : Scratch lqDims)
    (s : Sqp.State ℝ lqDims.VAR lqDims.NEQ lqDims.NINEQ (Sqp.identityPrecond ℝ _ _) qps) :
    let w := lamGuess (uGuess (xGuess lqWrap (ext lqSol)) fun i => ext lqSol (2 + i)) (ofDual lqMult)
    ∃ r, Sqp.solve (Sqp.defaultEnv (1 / 2 ^ 52) Sqp.Settings.default (problem (chebApprox 1) lqSrc.cbs lqWrap.ocp sc) (bounds lqWrap)) (start w s) = some r ∧
      r.status = .SOLVED ∧ r.iter = 1 ∧ solutionXAt (finish w r) 1 0 = some (2 / 3) ∧ solutionDual (finish w r) 3 = -16 / 3 := by
  intro w
  have ex : (fun i : Fin lqDims.VAR => w.x i) = lqSol := funext fun i => var4 (P := fun i : Fin lqDims.VAR => w.x i = lqSol i) rfl rfl rfl rfl i
  have el : toDual lqDims w.lam = lqMult := by
    funext i
    rcases i with i | i
    · have : i = 0 ∨ i = 1 := by have := i.2; change i.val < 2 at this; rcases i with ⟨_ | _ | _, _⟩ <;> first | exact Or.inl rfl | exact Or.inr rfl | (dsimp only at this; omega)
      rcases this with rfl | rfl <;> rfl
    · exact var4 (P := fun i : Fin lqDims.VAR => toDual lqDims w.lam (Sum.inr i) = lqMult (Sum.inr i)) rfl rfl rfl rfl i
  obtain ⟨Q, q, c, B, b, hSPD, hQP⟩ := linQuad_isQP (d := lqDims) (A := chebApprox 1) (sc := sc) (by decide) (by decide) (cheb_skew lqDims (by decide))
    (fun j hj => by rw [cheb_w 1 ⟨j, by change j ≤ 1 at hj; omega⟩]; exact Cheb.intWeights_pos (by decide) _) rfl (by decide) (Or.inl (by decide))
    (o := lqWrap.ocp) (by show (0 : ℝ) < 2; norm_num) (lq_exact _) lq_linQuad
  obtain ⟨r, h1, h2, h3, h4, h5⟩ := solved_wrapper_kept (d := lqDims) (A := chebApprox 1) (sc := sc) (by decide) (by decide) (cheb_skew lqDims (by decide)) w (lq_exact _)
    (env := Sqp.defaultEnv (1 / 2 ^ 52) Sqp.Settings.default (problem (chebApprox 1) lqSrc.cbs lqWrap.ocp sc) (bounds lqWrap)) rfl rfl (Sqp.identity_lawful _)
    (fun m qp => ⟨_, rfl⟩) hex (by show (0 : ℝ) ≤ 1 / 1000; norm_num) (by show (0 : ℝ) ≤ 1 / 1000; norm_num)
    (by show SPD ((problem (chebApprox 1) lqSrc.cbs lqWrap.ocp sc).lagHess _ _); rw [hQP.hess]; exact hSPD)
    (by rw [ex, el]; exact (lq_stationary sc _).2 rfl) (by rw [ex, el]; exact fun y => (lq_stationary sc y).1) s
  refine ⟨r, h1, h2, h3, ?_, ?_⟩
  · have e := h4 0 (by decide)
    have h6 := (x_at (finish w r) (1 : Fin 2) 0).1
    have h7 : (abs (finish w r)).x (1 : Fin 2) 0 = solutionX (finish w r) 0 := rfl
    rw [h7, e] at h6
    have h8 : solutionX w 0 = 2 / 3 := (congrFun ex 0).trans lqSol_values.1
    rw [h8] at h6
    exact h6
  · rw [h5 3 (by decide)]
    have := congrFun el (Sum.inr 1)
    have e9 : lqMult (Sum.inr 1) = -16 / 3 := by
      show (if (1 : Fin lqDims.VAR) = 1 then -16 / 3 else 0 : ℝ) = _
      rw [if_pos rfl]
    rw [e9] at this
    exact this

end PolyMPC.MpcSqp
