import Verif.Props.Ocp

/-!
# Cost, Lagrangian and their derivatives, dense (C42, C43, C45, C77, C78)
-/

namespace PolyMPC.Ocp
open AD Spec
open Polynomial hiding ext

set_option linter.unusedSectionVars false
set_option linter.unusedVariables false

/-! ### C42: cost -/

/-- **C42.** With a running cost that is written, the cost is the composite quadrature of the running cost over the segments plus the
terminal cost at the first node, which is the node of the final time. -/
theorem cost_quadrature (d : Dims) (A : Approx ℝ) (cb : Cbs d ℝ) (o : Obj d ℝ) (var L : ℕ → ℝ)
    (hw : ∀ k < d.NN, ∀ old, cb.lag (node d var k) (o.time k) old = L k) :
    cost d A cb o var = ∑ s ∈ Finset.range d.S, ∑ j ∈ Finset.range (d.N + 1),
        (o.tStop - o.tStart) / (2 * d.S) * A.w j * L (s * d.N + j)
      + cb.mayer (node d var 0) (o.time 0) 0 := by
  rw [cost_closed d A cb o var L hw]
  unfold quad tScale
  push_cast
  rfl

/-- **C42.** With the default (unwritten) running cost only the terminal cost remains. -/
theorem cost_no_running (d : Dims) (A : Approx ℝ) (cb : Cbs d ℝ) (o : Obj d ℝ) (var : ℕ → ℝ)
    (hw : ∀ z t old, cb.lag z t old = old) : cost d A cb o var = cb.mayer (node d var 0) (o.time 0) 0 :=
  cost_default d A cb o var hw

/-- **C42.** With the Chebyshev scheme the running part is the exact integral whenever on each segment the running cost along the
trajectory is a polynomial in time of degree at most `N`. -/
theorem cost_exact_integral (d : Dims) (cb : Cbs d ℝ) (o : Obj d ℝ) (var L : ℕ → ℝ) (hS : 1 ≤ d.S) (hN : 1 ≤ d.N) {t0 tf : ℝ} (h : t0 < tf)
    (P : ℕ → ℝ[X]) (hP : ∀ s < d.S, (P s).natDegree ≤ d.N) :
    let o' := setTimeLimits d (chebApprox d.N) o t0 tf
    (∀ k < d.NN, ∀ old, cb.lag (node d var k) (o'.time k) old = L k) →
    (∀ s < d.S, ∀ j ≤ d.N, (P s).eval (o'.time (s * d.N + j)) = L (s * d.N + j)) →
    cost d (chebApprox d.N) cb o' var = (∑ s ∈ Finset.range d.S, ∫ t in (o'.time ((s + 1) * d.N))..(o'.time (s * d.N)), (P s).eval t)
      + cb.mayer (node d var 0) tf 0 := by
  intro o' hw hv
  have hg := cheb_good hN
  have hS0 : (0 : ℝ) < d.S := by exact_mod_cast hS
  have hl : 0 < (tf - t0) / d.S / 2 := by have := sub_pos.2 h; positivity
  obtain ⟨j0, -, jn⟩ := time_junctions d _ hg hS o t0 tf
  rw [cost_quadrature d _ cb o' var L hw]
  have e0 : o'.time 0 = tf := j0
  rw [e0]
  congr 1
  refine Finset.sum_congr rfl fun s hs => ?_
  have hs' := Finset.mem_range.1 hs
  set a : ℝ := (tf - t0) / d.S / 2 with ha
  set b : ℝ := tf - s * ((tf - t0) / d.S) - (tf - t0) / d.S / 2 with hb
  have ht : ∀ l ≤ d.N, o'.time (s * d.N + l) = a * (chebApprox d.N).nodes l + b := by
    intro l hl
    show (setTimeLimits d (chebApprox d.N) o t0 tf).time _ = _
    rw [time_grid d _ hg o t0 tf hs' hl]; ring
  let Q : ℝ[X] := (P s).comp (C a * X + C b)
  have hQ : Q.natDegree ≤ d.N := by
    refine natDegree_comp_le.trans ?_
    have : (C a * X + C b : ℝ[X]).natDegree ≤ 1 := natDegree_linear_le
    calc (P s).natDegree * _ ≤ d.N * 1 := Nat.mul_le_mul (hP s hs') this
      _ = d.N := Nat.mul_one _
  have hx := Cheb.intWeights_exact hN hQ
  have e1 : ∑ j ∈ Finset.range (d.N + 1), (o'.tStop - o'.tStart) / (2 * d.S) * (chebApprox d.N).w j * L (s * d.N + j)
      = a * ∑ i, Q.eval (Cheb.nodes d.N i) * Cheb.intWeights d.N i := by
    rw [Finset.sum_range, Finset.mul_sum]
    refine Finset.sum_congr rfl fun l _ => ?_
    rw [← hv s hs' l.val (by omega), ht l.val (by omega), cheb_node, cheb_w]
    have e : (o'.tStop - o'.tStart) / (2 * d.S) = a := by
      show (tf - t0) / (2 * d.S) = a
      rw [ha]; field_simp
    rw [e]
    simp only [Q, eval_comp, eval_add, eval_mul, eval_C, eval_X]
    ring
  rw [e1, hx]
  have e2 : ∫ t in (-1 : ℝ)..1, Q.eval t = ∫ t in (-1 : ℝ)..1, (fun y => (P s).eval y) (a * t + b) := by
    simp [Q, eval_comp]
  have hlo : o'.time ((s + 1) * d.N) = a * (-1) + b := by
    have := jn (s + 1) hs'
    show (setTimeLimits d (chebApprox d.N) o t0 tf).time _ = _
    rw [this, ha, hb]; push_cast; field_simp; ring
  have hhi : o'.time (s * d.N) = a * 1 + b := by
    have := jn s hs'.le
    show (setTimeLimits d (chebApprox d.N) o t0 tf).time _ = _
    rw [this, ha, hb]; field_simp; ring
  rw [e2, intervalIntegral.integral_comp_mul_add (fun y => (P s).eval y) hl.ne' b, hlo, hhi, smul_eq_mul]
  field_simp

/-! ### C43: cost gradient -/

section Grad
variable (d : Dims) (A : Approx ℝ) (cb : Cbs d ℝ) (o : Obj d ℝ) (x : Fin d.VAR → ℝ)
  (L : ℕ → (Fin d.M → ℝ) → ℝ) (m : (Fin d.M → ℝ) → ℝ)

theorem zero_lt_NN : 0 < d.NN := by unfold Dims.NN; omega

theorem cost_fun (hL : ∀ k < d.NN, ∀ z old, cb.lag z (o.time k) old = L k z) (hm : ∀ z, cb.mayer z (o.time 0) 0 = m z) :
    (fun z : Fin d.VAR → ℝ => cost d A cb o (ext z))
      = fun z => ∑ s ∈ Finset.range d.S, ∑ j ∈ Finset.range (d.N + 1),
          tScale d o * A.w j * L (s * d.N + j) (node d (ext z) (s * d.N + j)) + m (node d (ext z) 0) := by
  funext z
  rw [cost_closed d A cb o (ext z) (fun k => L k (node d (ext z) k)) (fun k hk old => hL k hk _ old), hm]
  rfl

/-- **C43.** If the running cost is written and all callbacks are exact, the returned value is the cost and the returned gradient is
its gradient, whatever the accumulator of the object holds. -/
theorem cost_gradient (hL : ∀ k < d.NN, LagExact cb (o.time k) (L k) (node d (ext x) k))
    (hm : MayerExact cb (o.time 0) m (node d (ext x) 0)) :
    (costGradient d A cb o (ext x)).1 = cost d A cb o (ext x) ∧
    IsGradient (fun z => cost d A cb o (ext z)) (fun c => (costGradient d A cb o (ext x)).2.1 c) x := by
  have hch : ∀ k, ∃ a : Dual d.M ℝ, k < d.NN → (∀ old, cb.lagAD (node d (ext x) k) (o.time k) old = a) ∧ AdExact a (L k) (node d (ext x) k) := by
    intro k
    by_cases hk : k < d.NN
    · obtain ⟨a, ha⟩ := (hL k hk).ad; exact ⟨a, fun _ => ha⟩
    · exact ⟨⟨0, fun _ => 0⟩, fun h => absurd h hk⟩
  choose F hF using hch
  have hc := costGradient_closed d A cb o (ext x) F fun k hk old => (hF k hk).1 old
  have hfun := cost_fun d A cb o L m (fun k hk z old => (hL k hk).plain z old) hm.plain
  refine ⟨?_, ?_⟩
  · rw [hc.1, congrFun hfun x, hm.ad.1]
    congr 1
    unfold quad
    refine Finset.sum_congr rfl fun s hs => Finset.sum_congr rfl fun j hj => ?_
    have hk := node_lt d (Finset.mem_range.1 hs) (show j ≤ d.N by have := Finset.mem_range.1 hj; omega)
    show _ * (F (s * d.N + j)).val = _
    rw [(hF _ hk).2.1]
  · rw [hfun]
    have e : (fun c : Fin d.VAR => (costGradient d A cb o (ext x)).2.1 c) = fun c : Fin d.VAR =>
        (∑ s ∈ Finset.range d.S, ∑ j ∈ Finset.range (d.N + 1), tScale d o * A.w j * scatter d (s * d.N + j) (ext (F (s * d.N + j)).der) c)
        + scatter d 0 (ext (cb.mayerAD (node d (ext x) 0) (o.time 0) ⟨0, fun _ => 0⟩).der) c := by
      funext c; rw [hc.2 c c.2]; rfl
    rw [e]
    refine IsGradient.add' (IsGradient.sum' _ fun s hs => IsGradient.sum' _ fun j hj => IsGradient.smul' _ ?_)
      (isGradient_node d (zero_lt_NN d) hm.ad.2)
    have hk := node_lt d (Finset.mem_range.1 hs) (show j ≤ d.N by have := Finset.mem_range.1 hj; omega)
    exact isGradient_node d hk (hF _ hk).2.2

/-- **C43 (negative).** With the default running cost every node contributes the derivatives that the accumulator still holds, and the
accumulator then holds the derivatives of the terminal cost: after a call at `y`, the gradient returned at `x` is the gradient of the
terminal cost at `x` plus the quadrature of the terminal cost derivatives at `y`. -/
theorem cost_gradient_stale (hw : ∀ z t old, cb.lagAD z t old = old) (y : Fin d.VAR → ℝ) (c : ℕ) (hc : c < d.VAR) :
    (costGradient d A cb (costGradient d A cb o (ext y)).2.2 (ext x)).2.1 c
      = ∑ s ∈ Finset.range d.S, ∑ j ∈ Finset.range (d.N + 1), tScale d o * A.w j *
          scatter d (s * d.N + j) (ext (cb.mayerAD (node d (ext y) 0) (o.time 0) ⟨0, fun _ => 0⟩).der) c
        + scatter d 0 (ext (cb.mayerAD (node d (ext x) 0) (o.time 0) ⟨0, fun _ => 0⟩).der) c :=
  costGradient_default d A cb _ (ext x) hw hc

end Grad

/-! ### C45: Lagrangian -/

section Lagr
variable (d : Dims) (A : Approx ℝ) (cb : Cbs d ℝ) (o : Obj d ℝ) (junk : ℕ → ℕ → ℝ) (c0 : ℕ → ℝ) (J0 : ℕ → ℕ → ℝ)
  (f g : ℕ → ℕ → (Fin d.M → ℝ) → ℝ) (L : ℕ → (Fin d.M → ℝ) → ℝ) (m : (Fin d.M → ℝ) → ℝ) (lam : ℕ → ℝ) (x : Fin d.VAR → ℝ)

/-- **C45.** The Lagrangian is cost plus multipliers times constraints plus bound multipliers times variables. -/
theorem lagrangian_value : lagrangian d A cb o junk (ext x) lam c0 = cost d A cb o (ext x)
      + ∑ i ∈ Finset.range (d.NEQ + d.NINEQ), constraints d A cb o junk (ext x) c0 i * lam i
      + ∑ i : Fin d.VAR, x i * lam (d.NEQ + d.NINEQ + i) := by
  unfold lagrangian
  dsimp only
  rw [add_assoc, Finset.sum_range fun i => ext x i * lam (d.NEQ + d.NINEQ + i)]
  congr 2
  exact Finset.sum_congr rfl fun i _ => by unfold ext; rw [dif_pos i.2]

/-- **C45.** The vector returned as Lagrangian gradient is the gradient of the Lagrangian with respect to the variables; the returned
cost gradient, constraint values and Jacobian are right too. -/
theorem lagrangian_gradient (hS : 1 ≤ d.S) (hN : 1 ≤ d.N) (hsk : SkewEnds d A)
    (hf : ∀ k < d.NN, DynExact cb (o.time k) (f k) (node d (ext x) k)) (hg : ∀ k < d.NN, IneqExact cb (o.time k) (g k) (node d (ext x) k))
    (hL : ∀ k < d.NN, LagExact cb (o.time k) (L k) (node d (ext x) k)) (hm : MayerExact cb (o.time 0) m (node d (ext x) 0)) :
    let r := lagrangianGradient d A cb o junk (ext x) lam c0 J0
    IsGradient (fun z => lagrangian d A cb o junk (ext z) lam c0) (fun c => r.2.1 c) x ∧
    IsGradient (fun z => cost d A cb o (ext z)) (fun c => r.2.2.1 c) x ∧
    ∀ i < d.NEQ + d.NINEQ, r.2.2.2.1 i = constraints d A cb o junk (ext x) c0 i ∧
      IsGradient (fun z => constraints d A cb o junk (ext z) c0 i) (fun c => r.2.2.2.2.1 i c) x := by
  intro r
  have hc := cost_gradient d A cb o x L m hL hm
  have hj : ∀ i < d.NEQ + d.NINEQ, (constraintsLin d A cb (costGradient d A cb o (ext x)).2.2 junk (ext x) c0 J0).1 i
        = constraints d A cb o junk (ext x) c0 i ∧
      IsGradient (fun z => constraints d A cb o junk (ext z) c0 i)
        (fun c => (constraintsLin d A cb (costGradient d A cb o (ext x)).2.2 junk (ext x) c0 J0).2.1 i c) x :=
    fun i hi => jacobian d A cb (costGradient d A cb o (ext x)).2.2 junk c0 J0 f g x hS hN hsk hf hg hi
  refine ⟨?_, hc.2, hj⟩
  have e : (fun z : Fin d.VAR → ℝ => lagrangian d A cb o junk (ext z) lam c0) = fun z =>
      (∑ i ∈ Finset.range (d.NEQ + d.NINEQ), constraints d A cb o junk (ext z) c0 i * lam i + cost d A cb o (ext z))
      + ∑ i ∈ Finset.range d.VAR, ext z i * lam (d.NEQ + d.NINEQ + i) := by
    funext z; unfold lagrangian; ring
  rw [e]
  have e2 : (fun c : Fin d.VAR => r.2.1 c) = fun c : Fin d.VAR =>
      (∑ i ∈ Finset.range (d.NEQ + d.NINEQ), (constraintsLin d A cb (costGradient d A cb o (ext x)).2.2 junk (ext x) c0 J0).2.1 i c * lam i
        + (costGradient d A cb o (ext x)).2.1 c) + ∑ i ∈ Finset.range d.VAR, (if i = c then 1 else 0) * lam (d.NEQ + d.NINEQ + i) := by
    funext c
    have : ∑ i ∈ Finset.range d.VAR, (if i = c.val then (1 : ℝ) else 0) * lam (d.NEQ + d.NINEQ + i) = lam (d.NEQ + d.NINEQ + c) := by
      rw [Finset.sum_eq_single c.val]
      · simp
      · intro b _ hb; rw [if_neg hb, zero_mul]
      · intro h; exact absurd (Finset.mem_range.2 c.2) h
    rw [this]; rfl
  rw [e2]
  exact IsGradient.add' (IsGradient.add' (IsGradient.sum' _ fun i hi => IsGradient.mul_const' _ (hj i (Finset.mem_range.1 hi)).2) hc.2)
    (IsGradient.sum' _ fun i hi => IsGradient.mul_const' _ (isGradient_ext (Finset.mem_range.1 hi) x))

/-- **C45 (negative).** The value returned as "Lagrangian" by the gradient routine is the cost alone: it is the Lagrangian iff the
multiplier terms happen to sum to zero. -/
theorem lagrangian_value_is_cost (hL : ∀ k < d.NN, LagExact cb (o.time k) (L k) (node d (ext x) k))
    (hm : MayerExact cb (o.time 0) m (node d (ext x) 0)) :
    (lagrangianGradient d A cb o junk (ext x) lam c0 J0).1 = lagrangian d A cb o junk (ext x) lam c0 ↔
      ∑ i ∈ Finset.range (d.NEQ + d.NINEQ), constraints d A cb o junk (ext x) c0 i * lam i
        + ∑ i : Fin d.VAR, x i * lam (d.NEQ + d.NINEQ + i) = 0 := by
  rw [lagrangian_value]
  have e : (lagrangianGradient d A cb o junk (ext x) lam c0 J0).1 = cost d A cb o (ext x) :=
    (cost_gradient d A cb o x L m hL hm).1
  rw [e]
  constructor <;> intro h <;> linarith

/-! ### C77: dense cost Hessian -/

/-- **C77 (negative).** With more controls than states the dense second-order cost evaluation fails a range assertion. -/
theorem cost_hessian_assert (var : ℕ → ℝ) (h : d.NX < d.NU) : costGradientHessian d A cb o var = none := by
  unfold costGradientHessian
  simp only
  rw [if_pos ⟨by omega, Or.inl h⟩]

theorem hesOf_eq (a : Dual d.M (Dual d.M ℝ)) : hesOf a = fun i j => ext (fun r => ext (fun c => (a.der c).der r) j) i := by
  funext i j
  unfold hesOf derAt ext
  by_cases hj : j < d.M
  · by_cases hi : i < d.M
    · simp only [hj, hi, dif_pos]
    · simp only [hj, hi, dif_pos, dif_neg, not_false_eq_true]
  · by_cases hi : i < d.M
    · simp only [hj, hi, dif_pos, dif_neg, not_false_eq_true]
    · simp only [hj, hi, dif_neg, not_false_eq_true]

/-- **C77.** With at most as many controls as states, the dense second-order evaluation returns the cost, its gradient, and a matrix
that misses the Hessian of the cost exactly by `mayerErr` of the terminal Hessian: the parameter-parameter block of the terminal cost
is not added, and instead the first columns of its parameter rows are added a second time. -/
theorem cost_hessian (hU : d.NU ≤ d.NX) (hVX : d.NX ≤ d.VARU + d.NP ∨ d.NU = 0)
    (hL : ∀ k < d.NN, LagExact cb (o.time k) (L k) (node d (ext x) k)) (hm : MayerExact cb (o.time 0) m (node d (ext x) 0))
    (hL2 : ∀ k < d.NN, LagExact2 cb (o.time k) (L k) (node d (ext x) k)) (hm2 : MayerExact2 cb (o.time 0) m (node d (ext x) 0)) :
    ∃ J q H o', costGradientHessian d A cb o (ext x) = some (J, q, H, o') ∧
      o'.tStart = o.tStart ∧ o'.tStop = o.tStop ∧ o'.time = o.time ∧
      J = cost d A cb o (ext x) ∧ IsGradient (fun z => cost d A cb o (ext z)) (fun c => q c) x ∧
      IsHessian (fun z => cost d A cb o (ext z)) (fun r c => H r c
        - mayerErr d (hesOf (cb.mayerAD2 (node d (ext x) 0) (o.time 0) (zero2 d.M))) r c) x := by
  have hd : ¬ (0 < d.NU ∧ (d.NX < d.NU ∨ d.VAR < d.VARX + d.NX)) := by
    unfold Dims.VAR; omega
  have hch : ∀ k, ∃ a : Dual d.M (Dual d.M ℝ), k < d.NN → (∀ old, cb.lagAD2 (node d (ext x) k) (o.time k) old = a) ∧
      AdExact2 a (L k) (node d (ext x) k) := by
    intro k
    by_cases hk : k < d.NN
    · obtain ⟨a, ha⟩ := (hL2 k hk).ad2; exact ⟨a, fun _ => ha⟩
    · exact ⟨⟨⟨0, fun _ => 0⟩, fun _ => ⟨0, fun _ => 0⟩⟩, fun h => absurd h hk⟩
  choose F hF using hch
  obtain ⟨J, q, H, o', e, h1, h2, h3, -, -, -, hJ, hq, hH⟩ := costHessian_closed d A cb o (ext x) F (fun k hk old => (hF k hk).1 old) hd
  have hfun := cost_fun d A cb o L m (fun k hk z old => (hL k hk).plain z old) hm.plain
  refine ⟨J, q, H, o', e, h1, h2, h3, ?_, ?_, ?_⟩
  · rw [hJ, congrFun hfun x]
    have e1 : (cb.mayerAD2 (node d (ext x) 0) (o.time 0) (zero2 d.M)).val.val = m (node d (ext x) 0) := hm2.ad2.1
    rw [e1]
    congr 1
    unfold quad
    refine Finset.sum_congr rfl fun s hs => Finset.sum_congr rfl fun j hj => ?_
    have hk := node_lt d (Finset.mem_range.1 hs) (show j ≤ d.N by have := Finset.mem_range.1 hj; omega)
    show _ * (F (s * d.N + j)).val.val = _
    rw [(hF _ hk).2.1]
  · rw [hfun]
    have e2 : (fun c : Fin d.VAR => q c) = fun c : Fin d.VAR =>
        (∑ s ∈ Finset.range d.S, ∑ j ∈ Finset.range (d.N + 1), tScale d o * A.w j * scatter d (s * d.N + j) (ext (F (s * d.N + j)).val.der) c)
        + scatter d 0 (ext (cb.mayerAD2 (node d (ext x) 0) (o.time 0) (zero2 d.M)).val.der) c := by
      funext c; rw [hq c c.2]; rfl
    rw [e2]
    refine IsGradient.add' (IsGradient.sum' _ fun s hs => IsGradient.sum' _ fun j hj => IsGradient.smul' _ ?_)
      (isGradient_node d (zero_lt_NN d) hm2.ad2.2.1)
    have hk := node_lt d (Finset.mem_range.1 hs) (show j ≤ d.N by have := Finset.mem_range.1 hj; omega)
    exact isGradient_node d hk (hF _ hk).2.2.1
  · rw [hfun]
    have e2 : (fun r c : Fin d.VAR => H r c - mayerErr d (hesOf (cb.mayerAD2 (node d (ext x) 0) (o.time 0) (zero2 d.M))) r c)
        = fun r c : Fin d.VAR =>
        (∑ s ∈ Finset.range d.S, ∑ j ∈ Finset.range (d.N + 1), tScale d o * A.w j * scatter2 d (s * d.N + j) (hesOf (F (s * d.N + j))) r c)
        + scatter2 d 0 (hesOf (cb.mayerAD2 (node d (ext x) 0) (o.time 0) (zero2 d.M))) r c := by
      funext r c; rw [hH r r.2 c c.2, add_sub_cancel_right]; rfl
    rw [e2]
    simp only [hesOf_eq]
    refine IsHessian.add' (IsHessian.sum' _ fun s hs => IsHessian.sum' _ fun j hj => IsHessian.smul' _ ?_)
      (isHessian_node d (zero_lt_NN d) hm2.ad2.2.2)
    have hk := node_lt d (Finset.mem_range.1 hs) (show j ≤ d.N by have := Finset.mem_range.1 hj; omega)
    exact isHessian_node d hk (hF _ hk).2.2.2

/-- **C77.** Hence the returned matrix is the Hessian of the cost iff that error vanishes; it does for problems without parameters. -/
theorem cost_hessian_iff (hU : d.NU ≤ d.NX) (hVX : d.NX ≤ d.VARU + d.NP ∨ d.NU = 0)
    (hL : ∀ k < d.NN, LagExact cb (o.time k) (L k) (node d (ext x) k)) (hm : MayerExact cb (o.time 0) m (node d (ext x) 0))
    (hL2 : ∀ k < d.NN, LagExact2 cb (o.time k) (L k) (node d (ext x) k)) (hm2 : MayerExact2 cb (o.time 0) m (node d (ext x) 0)) :
    ∃ J q H o', costGradientHessian d A cb o (ext x) = some (J, q, H, o') ∧
      (IsHessian (fun z => cost d A cb o (ext z)) (fun r c => H r c) x ↔
        ∀ r < d.VAR, ∀ c < d.VAR, mayerErr d (hesOf (cb.mayerAD2 (node d (ext x) 0) (o.time 0) (zero2 d.M))) r c = 0) ∧
      (d.NP = 0 → IsHessian (fun z => cost d A cb o (ext z)) (fun r c => H r c) x) := by
  obtain ⟨J, q, H, o', e, -, -, -, -, -, hH⟩ := cost_hessian d A cb o L m x hU hVX hL hm hL2 hm2
  have key : (∀ r < d.VAR, ∀ c < d.VAR, mayerErr d (hesOf (cb.mayerAD2 (node d (ext x) 0) (o.time 0) (zero2 d.M))) r c = 0) →
      IsHessian (fun z => cost d A cb o (ext z)) (fun r c => H r c) x := by
    intro h
    have : (fun r c : Fin d.VAR => H r c - mayerErr d (hesOf (cb.mayerAD2 (node d (ext x) 0) (o.time 0) (zero2 d.M))) r c)
        = fun r c : Fin d.VAR => H r c := by funext r c; rw [h r r.2 c c.2, sub_zero]
    rwa [this] at hH
  refine ⟨J, q, H, o', e, ⟨fun h r hr c hc => ?_, key⟩, fun hp => key fun r hr c hc => ?_⟩
  · have := congrFun (congrFun (hessian_unique h hH) ⟨r, hr⟩) ⟨c, hc⟩
    simp only at this
    linarith
  · unfold mayerErr
    rw [if_neg]
    unfold Dims.VAR; omega

/-! ### C78: dense Lagrangian Hessian -/

/-- **C78.** With cost scaling one, the dense Lagrangian second-order evaluation returns the gradient of the Lagrangian and, up to the
error of C77, the Hessian of the Lagrangian. -/
theorem lagrangian_hessian (hS : 1 ≤ d.S) (hN : 1 ≤ d.N) (hsk : SkewEnds d A) (xd0 g0 : ℕ → Dual d.M (Dual d.M ℝ))
    (hU : d.NU ≤ d.NX) (hVX : d.NX ≤ d.VARU + d.NP ∨ d.NU = 0)
    (hf : ∀ k < d.NN, DynExact cb (o.time k) (f k) (node d (ext x) k)) (hg : ∀ k < d.NN, IneqExact cb (o.time k) (g k) (node d (ext x) k))
    (hL : ∀ k < d.NN, LagExact cb (o.time k) (L k) (node d (ext x) k)) (hm : MayerExact cb (o.time 0) m (node d (ext x) 0))
    (hf2 : ∀ k < d.NN, DynExact2 cb (o.time k) (f k) (node d (ext x) k)) (hg2 : ∀ k < d.NN, IneqExact2 cb (o.time k) (g k) (node d (ext x) k))
    (hL2 : ∀ k < d.NN, LagExact2 cb (o.time k) (L k) (node d (ext x) k)) (hm2 : MayerExact2 cb (o.time 0) m (node d (ext x) 0)) :
    ∃ J q H o', lagrangianGradientHessian d A cb o junk (ext x) lam c0 J0 xd0 g0 1 = some (J, q, H, o') ∧
      J = cost d A cb o (ext x) ∧
      IsGradient (fun z => lagrangian d A cb o junk (ext z) lam c0) (fun c => q c) x ∧
      IsHessian (fun z => lagrangian d A cb o junk (ext z) lam c0) (fun r c => H r c
        - mayerErr d (hesOf (cb.mayerAD2 (node d (ext x) 0) (o.time 0) (zero2 d.M))) r c) x := by
  obtain ⟨J, q, H, o', e, t1, t2, t3, hJ, hq, hH⟩ := cost_hessian d A cb o L m x hU hVX hL hm hL2 hm2
  -- AD values of the constraints
  have hch : ∀ k, ∃ F : ℕ → Dual d.M (Dual d.M ℝ), k < d.NN → ∀ i < d.NX, (∀ old, cb.dynAD2 (node d (ext x) k) (o.time k) old i = F i) ∧
      AdExact2 (F i) (f k i) (node d (ext x) k) := by
    intro k
    by_cases hk : k < d.NN
    · have : ∀ i, ∃ a, i < d.NX → (∀ old, cb.dynAD2 (node d (ext x) k) (o.time k) old i = a) ∧ AdExact2 a (f k i) (node d (ext x) k) := by
        intro i
        by_cases hi : i < d.NX
        · obtain ⟨a, ha⟩ := (hf2 k hk).ad2 i hi; exact ⟨a, fun _ => ha⟩
        · exact ⟨⟨⟨0, fun _ => 0⟩, fun _ => ⟨0, fun _ => 0⟩⟩, fun h => absurd h hi⟩
      choose F hF using this
      exact ⟨F, fun _ => hF⟩
    · exact ⟨fun _ => ⟨⟨0, fun _ => 0⟩, fun _ => ⟨0, fun _ => 0⟩⟩, fun h => absurd h hk⟩
  have hch' : ∀ k, ∃ F : ℕ → Dual d.M (Dual d.M ℝ), k < d.NN → ∀ i < d.NG, (∀ old, cb.ineqAD2 (node d (ext x) k) (o.time k) old i = F i) ∧
      AdExact2 (F i) (g k i) (node d (ext x) k) := by
    intro k
    by_cases hk : k < d.NN
    · have : ∀ i, ∃ a, i < d.NG → (∀ old, cb.ineqAD2 (node d (ext x) k) (o.time k) old i = a) ∧ AdExact2 a (g k i) (node d (ext x) k) := by
        intro i
        by_cases hi : i < d.NG
        · obtain ⟨a, ha⟩ := (hg2 k hk).ad2 i hi; exact ⟨a, fun _ => ha⟩
        · exact ⟨⟨⟨0, fun _ => 0⟩, fun _ => ⟨0, fun _ => 0⟩⟩, fun h => absurd h hi⟩
      choose F hF using this
      exact ⟨F, fun _ => hF⟩
    · exact ⟨fun _ => ⟨⟨0, fun _ => 0⟩, fun _ => ⟨0, fun _ => 0⟩⟩, fun h => absurd h hk⟩
  choose F hF using hch
  choose G hG using hch'
  have ecl : ∀ i < d.NEQ + d.NINEQ, (constraintsLin d A cb o' junk (ext x) c0 J0).1 i
        = constraints d A cb o' junk (ext x) c0 i ∧
      IsGradient (fun z => constraints d A cb o' junk (ext z) c0 i) (fun c => (constraintsLin d A cb o' junk (ext x) c0 J0).2.1 i c) x :=
    fun i hi => jacobian d A cb o' junk c0 J0 f g x hS hN hsk (by rw [t3]; exact hf) (by rw [t3]; exact hg) hi
  have econ : ∀ z : Fin d.VAR → ℝ, constraints d A cb o' junk (ext z) c0 = constraints d A cb o junk (ext z) c0 := by
    intro z
    unfold constraints equalities inequalities tScale
    rw [t1, t2, t3]
  have eo : (constraintsLin d A cb o' junk (ext x) c0 J0).2.2.time = o.time ∧
      tScale d (constraintsLin d A cb o' junk (ext x) c0 J0).2.2 = tScale d o := by
    refine ⟨?_, ?_⟩
    · show o'.time = o.time; exact t3
    · unfold tScale; show (o'.tStop - o'.tStart) / _ = _; rw [t1, t2]
  refine ⟨J, _, _, _, by unfold lagrangianGradientHessian; rw [e]; rfl, hJ, ?_, ?_⟩
  · have e1 : (fun z : Fin d.VAR → ℝ => lagrangian d A cb o junk (ext z) lam c0) = fun z =>
        (∑ i ∈ Finset.range (d.NEQ + d.NINEQ), constraints d A cb o junk (ext z) c0 i * lam i + cost d A cb o (ext z))
        + ∑ i ∈ Finset.range d.VAR, ext z i * lam (d.NEQ + d.NINEQ + i) := by
      funext z; unfold lagrangian; ring
    rw [e1]
    have e2 : (fun c : Fin d.VAR => ∑ i ∈ Finset.range (d.NEQ + d.NINEQ), (constraintsLin d A cb o' junk (ext x) c0 J0).2.1 i c * lam i
          + q c + lam (d.NEQ + d.NINEQ + c)) = fun c : Fin d.VAR =>
        (∑ i ∈ Finset.range (d.NEQ + d.NINEQ), (constraintsLin d A cb o' junk (ext x) c0 J0).2.1 i c * lam i
          + q c) + ∑ i ∈ Finset.range d.VAR, (if i = c then 1 else 0) * lam (d.NEQ + d.NINEQ + i) := by
      funext c
      have : ∑ i ∈ Finset.range d.VAR, (if i = c.val then (1 : ℝ) else 0) * lam (d.NEQ + d.NINEQ + i) = lam (d.NEQ + d.NINEQ + c) := by
        rw [Finset.sum_eq_single c.val]
        · simp
        · intro b _ hb; rw [if_neg hb, zero_mul]
        · intro h; exact absurd (Finset.mem_range.2 c.2) h
      rw [this]
    show IsGradient _ (fun c : Fin d.VAR => ∑ i ∈ Finset.range (d.NEQ + d.NINEQ), (constraintsLin d A cb o' junk (ext x) c0 J0).2.1 i c * lam i
          + q c + lam (d.NEQ + d.NINEQ + c)) x
    rw [e2]
    refine IsGradient.add' (IsGradient.add' (IsGradient.sum' _ fun i hi => IsGradient.mul_const' _ ?_) hq)
      (IsGradient.sum' _ fun i hi => IsGradient.mul_const' _ (isGradient_ext (Finset.mem_range.1 hi) x))
    have := (ecl i (Finset.mem_range.1 hi)).2
    simp only [econ] at this
    exact this
  · -- the Lagrangian as a sum of node functions and an affine part
    have e1 : (fun z : Fin d.VAR → ℝ => lagrangian d A cb o junk (ext z) lam c0) = fun z =>
        (cost d A cb o (ext z) + ∑ k ∈ Finset.range d.NN,
          (∑ n ∈ Finset.range d.NX, (-lam (n + k * d.NX) * tScale d o) * f k n (node d (ext z) k)
            + ∑ n ∈ Finset.range d.NG, lam (n + k * d.NG + d.NEQ) * g k n (node d (ext z) k)))
        + (∑ k ∈ Finset.range d.NN, ∑ n ∈ Finset.range d.NX, lam (k * d.NX + n) * diffX d A (ext z) junk k n
          + ∑ i ∈ Finset.range d.VAR, lam (d.NEQ + d.NINEQ + i) * ext z i) := by
      funext z
      unfold lagrangian
      dsimp only
      rw [Finset.sum_range_add]
      have s1 : ∑ i ∈ Finset.range d.NEQ, constraints d A cb o junk (ext z) c0 i * lam i
          = ∑ k ∈ Finset.range d.NN, ∑ n ∈ Finset.range d.NX, (lam (k * d.NX + n) * diffX d A (ext z) junk k n
            + (-lam (n + k * d.NX) * tScale d o) * f k n (node d (ext z) k)) := by
        unfold Dims.NEQ Dims.VARX
        rw [sum_blocks]
        refine Finset.sum_congr rfl fun k hk => Finset.sum_congr rfl fun n hn => ?_
        have hk' := Finset.mem_range.1 hk
        have hn' := Finset.mem_range.1 hn
        rw [constraints_eq_part d A cb o junk (ext z) c0 (xIdx_lt d hk' hn'),
          equalities_at d A cb o junk (ext z) c0 (fun k i => f k i (node d (ext z) k)) (fun k hk old i hi => (hf k hk).plain _ old i hi) hk' hn',
          Nat.add_comm n]
        ring
      have s2 : ∑ i ∈ Finset.range d.NINEQ, constraints d A cb o junk (ext z) c0 (d.NEQ + i) * lam (d.NEQ + i)
          = ∑ k ∈ Finset.range d.NN, ∑ n ∈ Finset.range d.NG, lam (n + k * d.NG + d.NEQ) * g k n (node d (ext z) k) := by
        unfold Dims.NINEQ
        rw [sum_blocks]
        refine Finset.sum_congr rfl fun k hk => Finset.sum_congr rfl fun n hn => ?_
        have hk' := Finset.mem_range.1 hk
        have hn' := Finset.mem_range.1 hn
        have hr : k * d.NG + n < d.NINEQ := by unfold Dims.NINEQ; rw [Nat.mul_comm d.NG]; exact blk_le hn' hk'
        obtain ⟨c'', e⟩ := constraints_ineq_part d A cb o junk (ext z) c0 hr
        rw [e, inequalities_at d cb o (ext z) c'' (fun k i => g k i (node d (ext z) k)) (fun k hk old i hi => (hg k hk).plain _ old i hi) hk' hn',
          show n + k * d.NG + d.NEQ = d.NEQ + (k * d.NG + n) by omega]
        ring
      rw [s1, s2]
      simp only [Finset.sum_add_distrib]
      have s3 : ∑ i ∈ Finset.range d.VAR, ext z i * lam (d.NEQ + d.NINEQ + i) = ∑ i ∈ Finset.range d.VAR, lam (d.NEQ + d.NINEQ + i) * ext z i :=
        Finset.sum_congr rfl fun i _ => mul_comm _ _
      rw [s3]
      ring
    rw [e1]
    have e2 : (fun r c : Fin d.VAR => addConstraintHessian d cb (constraintsLin d A cb o' junk (ext x) c0 J0).2.2 (ext x) lam xd0 g0
          (fun r c => 1 * H r c) r c - mayerErr d (hesOf (cb.mayerAD2 (node d (ext x) 0) (o.time 0) (zero2 d.M))) r c)
        = fun r c : Fin d.VAR => ((H r c - mayerErr d (hesOf (cb.mayerAD2 (node d (ext x) 0) (o.time 0) (zero2 d.M))) r c)
          + ∑ k ∈ Finset.range d.NN,
          (∑ n ∈ Finset.range d.NX, (-lam (n + k * d.NX) * tScale d o) * scatter2 d k (hesOf (F k n)) r c
            + ∑ n ∈ Finset.range d.NG, lam (n + k * d.NG + d.NEQ) * scatter2 d k (hesOf (G k n)) r c)) + 0 := by
      funext r c
      rw [constraintHessian_closed d cb _ (ext x) lam xd0 g0 _ F G (fun k hk old i hi => by rw [eo.1]; exact (hF k hk i hi).1 old)
        (fun k hk old i hi => by rw [eo.1]; exact (hG k hk i hi).1 old) r.2 c.2, eo.2, one_mul]
      ring
    show IsHessian _ (fun r c : Fin d.VAR => addConstraintHessian d cb (constraintsLin d A cb o' junk (ext x) c0 J0).2.2 (ext x) lam xd0 g0
          (fun r c => 1 * H r c) r c - mayerErr d (hesOf (cb.mayerAD2 (node d (ext x) 0) (o.time 0) (zero2 d.M))) r c) x
    rw [e2]
    simp only [hesOf_eq] at hH ⊢
    refine IsHessian.add' (IsHessian.add' hH (IsHessian.sum' _ fun k hk => IsHessian.add' (IsHessian.sum' _ fun n hn => IsHessian.smul' _ ?_)
      (IsHessian.sum' _ fun n hn => IsHessian.smul' _ ?_))) ?_
    · exact isHessian_node d (Finset.mem_range.1 hk) (hF k (Finset.mem_range.1 hk) n (Finset.mem_range.1 hn)).2.2.2
    · exact isHessian_node d (Finset.mem_range.1 hk) (hG k (Finset.mem_range.1 hk) n (Finset.mem_range.1 hn)).2.2.2
    · refine isHessian_affine (u := fun c => ∑ k ∈ Finset.range d.NN, ∑ n ∈ Finset.range d.NX, lam (k * d.NX + n) * diffRow d A
          (if k < d.S * d.N then k / d.N else d.S - 1) (if k < d.S * d.N then k % d.N else d.N) n c
        + ∑ i ∈ Finset.range d.VAR, lam (d.NEQ + d.NINEQ + i) * (if i = c then 1 else 0)) (fun z => ?_) x
      refine IsGradient.add' (IsGradient.sum' _ fun k hk => IsGradient.sum' _ fun n hn => IsGradient.smul' _ ?_)
        (IsGradient.sum' _ fun i hi => IsGradient.smul' _ (isGradient_ext (Finset.mem_range.1 hi) z))
      have hk' := Finset.mem_range.1 hk
      have hn' := Finset.mem_range.1 hn
      obtain ⟨s, j, hs, hj, hjs, ek⟩ : ∃ s j, s < d.S ∧ j ≤ d.N ∧ (j < d.N ∨ s + 1 = d.S) ∧ k = s * d.N + j ∧
          (if k < d.S * d.N then k / d.N else d.S - 1) = s ∧ (if k < d.S * d.N then k % d.N else d.N) = j := by
        by_cases hlt : k < d.S * d.N
        · refine ⟨k / d.N, k % d.N, Nat.div_lt_of_lt_mul (by rw [Nat.mul_comm]; exact hlt), (Nat.mod_lt _ hN).le, Or.inl (Nat.mod_lt _ hN), ?_, if_pos hlt, if_pos hlt⟩
          rw [Nat.mul_comm]; exact (Nat.div_add_mod k d.N).symm
        · refine ⟨d.S - 1, d.N, by omega, le_rfl, Or.inr (by omega), ?_, if_neg hlt, if_neg hlt⟩
          have : d.S * d.N = (d.S - 1) * d.N + d.N := by
            conv_lhs => rw [show d.S = d.S - 1 + 1 by omega, Nat.add_mul, Nat.one_mul]
          unfold Dims.NN at hk'; omega
      rw [ek.2.1, ek.2.2]
      have ez : (fun z : Fin d.VAR → ℝ => diffX d A (ext z) junk k n)
          = fun z => ∑ l ∈ Finset.range (d.N + 1), A.D j l * ext z ((s * d.N + l) * d.NX + n) := by
        funext z; rw [ek.1]; exact diffX_closed d A (ext z) junk hs hj hjs hn'
      have er : (fun c : Fin d.VAR => diffRow d A s j n c)
          = fun c : Fin d.VAR => ∑ l ∈ Finset.range (d.N + 1), A.D j l * (if (s * d.N + l) * d.NX + n = c then 1 else 0) := by
        funext c; unfold diffRow
        exact Finset.sum_congr rfl fun l _ => by split_ifs <;> simp
      rw [ez, er]
      refine IsGradient.sum' _ fun l hl => IsGradient.smul' _ (isGradient_ext ?_ z)
      have := xIdx_lt d (node_lt d hs (show l ≤ d.N by have := Finset.mem_range.1 hl; omega)) hn'
      unfold Dims.VAR; omega

end Lagr

end PolyMPC.Ocp
