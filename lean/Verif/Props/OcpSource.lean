import Verif.Props.OcpCost

/-!
# Callbacks written as expressions: the hypotheses of the transcription theorems hold (C39, C43, C45, C77, C78)
-/

namespace PolyMPC.Ocp
open AD Spec

set_option linter.unusedSectionVars false
set_option linter.unusedVariables false

section Src
variable {d : Dims} (s : Src d) (t : ℝ) (z : Fin d.M → ℝ)

theorem src_dyn (e : ℕ → Expr d.M) (h : ∀ i < d.NX, s.dyn t i = .assign (e i)) (ok : ∀ i < d.NX, (e i).Ok z) :
    DynExact s.cbs t (fun i z => (e i).eval z) z where
  plain z old i hi := by show (s.dyn t i).run z _ = _; rw [h i hi]; rfl
  ad i hi := ⟨(e i).eval (seed z), fun old => by show (s.dyn t i).run (seed z) _ = _; rw [h i hi]; rfl, ad_gradient (e i) z (ok i hi)⟩

theorem src_ineq (e : ℕ → Expr d.M) (h : ∀ i < d.NG, s.ineq t i = .assign (e i)) (ok : ∀ i < d.NG, (e i).Ok z) :
    IneqExact s.cbs t (fun i z => (e i).eval z) z where
  plain z old i hi := by show (s.ineq t i).run z _ = _; rw [h i hi]; rfl
  ad i hi := ⟨(e i).eval (seed z), fun old => by show (s.ineq t i).run (seed z) _ = _; rw [h i hi]; rfl, ad_gradient (e i) z (ok i hi)⟩

theorem src_lag (e : Expr d.M) (h : s.lag t = .assign e) (ok : e.Ok z) : LagExact s.cbs t (fun z => e.eval z) z where
  plain z old := by show (s.lag t).run z _ = _; rw [h]; rfl
  ad := ⟨e.eval (seed z), fun old => by show (s.lag t).run (seed z) _ = _; rw [h]; rfl, ad_gradient e z ok⟩

theorem src_mayer (e : Expr d.M) (h : s.mayer t = .assign e) (ok : e.Ok z) : MayerExact s.cbs t (fun z => e.eval z) z where
  plain z := by show (s.mayer t).run z _ = _; rw [h]; rfl
  ad := by
    have : s.cbs.mayerAD z t ⟨0, fun _ => 0⟩ = e.eval (seed z) := by show (s.mayer t).run (seed z) _ = _; rw [h]; rfl
    rw [this]; exact ad_gradient e z ok

/-- The default terminal cost counts as the zero function. -/
theorem src_mayer_default (h : s.mayer t = .skip) : MayerExact s.cbs t (fun _ => 0) z where
  plain z := by show (s.mayer t).run z _ = _; rw [h]; rfl
  ad := by
    have : s.cbs.mayerAD z t ⟨0, fun _ => 0⟩ = ⟨0, fun _ => 0⟩ := by show (s.mayer t).run (seed z) _ = _; rw [h]; rfl
    rw [this]; exact ⟨rfl, isGradient_const 0 z⟩

theorem exact2 (e : Expr d.M) (ok : e.Ok z) (hp : e.NoPow) : AdExact2 (e.eval (seed2 z)) (fun z => e.eval z) z :=
  let h := ad2_hessian e z ok hp
  ⟨h.1, h.2.1, h.2.2.2.1⟩

theorem src_dyn2 (e : ℕ → Expr d.M) (h : ∀ i < d.NX, s.dyn t i = .assign (e i)) (ok : ∀ i < d.NX, (e i).Ok z) (hp : ∀ i < d.NX, (e i).NoPow) :
    DynExact2 s.cbs t (fun i z => (e i).eval z) z where
  ad2 i hi := ⟨(e i).eval (seed2 z), fun old => by show (s.dyn t i).run (seed2 z) _ = _; rw [h i hi]; rfl, exact2 z (e i) (ok i hi) (hp i hi)⟩

theorem src_ineq2 (e : ℕ → Expr d.M) (h : ∀ i < d.NG, s.ineq t i = .assign (e i)) (ok : ∀ i < d.NG, (e i).Ok z) (hp : ∀ i < d.NG, (e i).NoPow) :
    IneqExact2 s.cbs t (fun i z => (e i).eval z) z where
  ad2 i hi := ⟨(e i).eval (seed2 z), fun old => by show (s.ineq t i).run (seed2 z) _ = _; rw [h i hi]; rfl, exact2 z (e i) (ok i hi) (hp i hi)⟩

theorem src_lag2 (e : Expr d.M) (h : s.lag t = .assign e) (ok : e.Ok z) (hp : e.NoPow) : LagExact2 s.cbs t (fun z => e.eval z) z where
  ad2 := ⟨e.eval (seed2 z), fun old => by show (s.lag t).run (seed2 z) _ = _; rw [h]; rfl, exact2 z e ok hp⟩

theorem src_mayer2 (e : Expr d.M) (h : s.mayer t = .assign e) (ok : e.Ok z) (hp : e.NoPow) : MayerExact2 s.cbs t (fun z => e.eval z) z where
  ad2 := by
    have : s.cbs.mayerAD2 z t ⟨⟨0, fun _ => 0⟩, fun _ => ⟨0, fun _ => 0⟩⟩ = e.eval (seed2 z) := by
      show (s.mayer t).run (seed2 z) _ = _; rw [h]; rfl
    rw [this]; exact exact2 z e ok hp

end Src

/-- **C39 end to end.** Callbacks written as expressions, Chebyshev scheme: at every point where the expressions are defined and
differentiable, the dense linearisation returns the constraint values and the Jacobian of the constraints. -/
theorem source_jacobian (d : Dims) (s : Src d) (o : Obj d ℝ) (junk : ℕ → ℕ → ℝ) (c0 : ℕ → ℝ) (J0 : ℕ → ℕ → ℝ) (x : Fin d.VAR → ℝ)
    (hS : 1 ≤ d.S) (hN : 1 ≤ d.N) (f g : ℝ → ℕ → Expr d.M) (hf : ∀ t, ∀ i < d.NX, s.dyn t i = .assign (f t i))
    (hg : ∀ t, ∀ i < d.NG, s.ineq t i = .assign (g t i))
    (okf : ∀ k < d.NN, ∀ i < d.NX, (f (o.time k) i).Ok (node d (ext x) k)) (okg : ∀ k < d.NN, ∀ i < d.NG, (g (o.time k) i).Ok (node d (ext x) k))
    {r : ℕ} (hr : r < d.NEQ + d.NINEQ) :
    (constraintsLin d (chebApprox d.N) s.cbs o junk (ext x) c0 J0).1 r = constraints d (chebApprox d.N) s.cbs o junk (ext x) c0 r ∧
    IsGradient (fun z => constraints d (chebApprox d.N) s.cbs o junk (ext z) c0 r)
      (fun c => (constraintsLin d (chebApprox d.N) s.cbs o junk (ext x) c0 J0).2.1 r c) x :=
  jacobian d _ s.cbs o junk c0 J0 (fun k i z => (f (o.time k) i).eval z) (fun k i z => (g (o.time k) i).eval z) x hS hN (cheb_skew d hN)
    (fun k hk => src_dyn s _ _ (f (o.time k)) (hf _) (okf k hk)) (fun k hk => src_ineq s _ _ (g (o.time k)) (hg _) (okg k hk)) hr

/-! ### A concrete problem -/

/-- Two states, one control, one parameter, one path constraint, two segments of order two. -/
def exDims : Dims := ⟨2, 1, 1, 1, 2, 2⟩

instance : NeZero exDims.M := ⟨by decide⟩

/-- `x0' = x1`, `x1' = p sin(u)`, `x0 * u ≤ …`, running cost `x0² + u²`, terminal cost `x1²`. -/
noncomputable def exSrc : Src exDims where
  dyn _ i := .assign (if i = 0 then .var 1 else .bin .mul (.var 3) (.un .sin (.var 2)))
  ineq _ _ := .assign (.bin .mul (.var 0) (.var 2))
  lag _ := .assign (.bin .add (.un .abs2 (.var 0)) (.un .abs2 (.var 2)))
  mayer _ := .assign (.un .abs2 (.var 1))

/-- Non-vacuity of C39: the example problem has an exact dense Jacobian at every point; it has 15 constraints and 16 variables. -/
example (o : Obj exDims ℝ) (junk : ℕ → ℕ → ℝ) (c0 : ℕ → ℝ) (J0 : ℕ → ℕ → ℝ) (x : Fin exDims.VAR → ℝ) : exDims.VAR = 16 ∧
    ∀ r < 15, IsGradient (fun z => constraints exDims (chebApprox 2) exSrc.cbs o junk (ext z) c0 r)
      (fun c => (constraintsLin exDims (chebApprox 2) exSrc.cbs o junk (ext x) c0 J0).2.1 r c) x := by
  refine ⟨rfl, fun r hr => ?_⟩
  refine (source_jacobian exDims exSrc o junk c0 J0 x (by decide) (by decide)
    (fun _ i => if i = 0 then .var 1 else .bin .mul (.var 3) (.un .sin (.var 2))) (fun _ _ => .bin .mul (.var 0) (.var 2))
    (fun t i hi => rfl) (fun t i hi => rfl) (fun k hk i hi => ?_) (fun k hk i hi => ⟨trivial, trivial, trivial⟩) hr).2
  split_ifs
  · exact trivial
  · exact ⟨trivial, ⟨trivial, trivial⟩, trivial⟩

/-- Non-vacuity of C45 and C78: the same problem's Lagrangian gradient and Hessian, at every point and for all multipliers. The
terminal cost does not involve the parameter, so the error of C77 vanishes. -/
example (o : Obj exDims ℝ) (junk : ℕ → ℕ → ℝ) (c0 lam : ℕ → ℝ) (J0 : ℕ → ℕ → ℝ) (x : Fin exDims.VAR → ℝ)
    (xd0 g0 : ℕ → Dual exDims.M (Dual exDims.M ℝ)) :
    ∃ J q H o', lagrangianGradientHessian exDims (chebApprox 2) exSrc.cbs o junk (ext x) lam c0 J0 xd0 g0 1 = some (J, q, H, o') ∧
      IsGradient (fun z => lagrangian exDims (chebApprox 2) exSrc.cbs o junk (ext z) lam c0) (fun c => q c) x := by
  have okf : ∀ i, (if i = 0 then (.var 1 : Expr exDims.M) else .bin .mul (.var 3) (.un .sin (.var 2))).NoPow ∧
      ∀ z, (if i = 0 then (.var 1 : Expr exDims.M) else .bin .mul (.var 3) (.un .sin (.var 2))).Ok z := by
    intro i
    split_ifs
    · exact ⟨trivial, fun z => trivial⟩
    · exact ⟨⟨trivial, trivial⟩, fun z => ⟨trivial, ⟨trivial, trivial⟩, trivial⟩⟩
  obtain ⟨J, q, H, o', e, -, hq, -⟩ := lagrangian_hessian exDims (chebApprox 2) exSrc.cbs o junk c0 J0
    (fun k i z => (if i = 0 then (.var 1 : Expr exDims.M) else .bin .mul (.var 3) (.un .sin (.var 2))).eval z)
    (fun k i z => (.bin .mul (.var 0) (.var 2) : Expr exDims.M).eval z)
    (fun k z => (.bin .add (.un .abs2 (.var 0)) (.un .abs2 (.var 2)) : Expr exDims.M).eval z)
    (fun z => (.un .abs2 (.var 1) : Expr exDims.M).eval z) lam x (by decide) (by decide) (cheb_skew exDims (by decide)) xd0 g0
    (by decide) (Or.inl (by decide))
    (fun k hk => src_dyn exSrc _ _ _ (fun i hi => rfl) (fun i hi => (okf i).2 _))
    (fun k hk => src_ineq exSrc _ _ _ (fun i hi => rfl) (fun i hi => ⟨trivial, trivial, trivial⟩))
    (fun k hk => src_lag exSrc _ _ _ rfl ⟨⟨trivial, trivial⟩, ⟨trivial, trivial⟩, trivial⟩)
    (src_mayer exSrc _ _ _ rfl ⟨trivial, trivial⟩)
    (fun k hk => src_dyn2 exSrc _ _ _ (fun i hi => rfl) (fun i hi => (okf i).2 _) (fun i hi => (okf i).1))
    (fun k hk => src_ineq2 exSrc _ _ _ (fun i hi => rfl) (fun i hi => ⟨trivial, trivial, trivial⟩) (fun i hi => ⟨trivial, trivial⟩))
    (fun k hk => src_lag2 exSrc _ _ _ rfl ⟨⟨trivial, trivial⟩, ⟨trivial, trivial⟩, trivial⟩ ⟨trivial, trivial⟩)
    (src_mayer2 exSrc _ _ _ rfl ⟨trivial, trivial⟩ trivial)
  exact ⟨J, q, H, o', e, hq⟩

/-! ### Witnesses of the defects -/

/-- One state, nothing else, one segment of order one. -/
def dims1 : Dims := ⟨1, 0, 0, 0, 1, 1⟩

instance : NeZero dims1.M := ⟨by decide⟩

/-- Only a terminal cost `x²`; the running cost is the default one. -/
noncomputable def mayerOnly : Src dims1 where
  dyn _ _ := .assign (.var 0)
  ineq _ _ := .skip
  lag _ := .skip
  mayer _ := .assign (.un .abs2 (.var 0))

/-- **C43 (negative).** A problem with only a terminal cost on `[0, 2]`: after evaluating the gradient at a point with final state
`1`, the gradient returned at zero is `2` in the final state and `2` in the initial state. The cost there has gradient zero. -/
theorem stale_gradient (o : Obj dims1 ℝ) (y : Fin dims1.VAR → ℝ) (hy : ext y 0 = 1) (h0 : o.tStart = 0) (h2 : o.tStop = 2) :
    let o1 := (costGradient dims1 (chebApprox 1) mayerOnly.cbs o (ext y)).2.2
    let x : Fin dims1.VAR → ℝ := fun _ => 0
    (costGradient dims1 (chebApprox 1) mayerOnly.cbs o1 (ext x)).2.1 0 = 2 ∧
    IsGradient (fun z => cost dims1 (chebApprox 1) mayerOnly.cbs o1 (ext z)) (fun _ => 0) x ∧
    ¬ IsGradient (fun z => cost dims1 (chebApprox 1) mayerOnly.cbs o1 (ext z))
      (fun c => (costGradient dims1 (chebApprox 1) mayerOnly.cbs o1 (ext x)).2.1 c) x := by
  intro o1 x
  have hv : (0 : ℕ) < dims1.VAR := by decide
  have h := cost_gradient_stale dims1 (chebApprox 1) mayerOnly.cbs o x (fun z t old => rfl) y 0 hv
  have hw : ∀ j < 2, (chebApprox 1).w j = 1 := by
    intro j hj
    have := cheb_w 1 ⟨j, hj⟩
    simp only at this
    rw [this]
    unfold Cheb.intWeights
    rw [if_neg (by norm_num), if_pos (by simp only; omega)]
    norm_num
  have hts : tScale dims1 o = 1 := by unfold tScale; rw [h0, h2]; norm_num [dims1]
  have hsc0 : ∀ v : Fin dims1.M → ℝ, scatter dims1 0 (ext v) 0 = v 0 := by
    intro v
    have := scatter_at dims1 (k := 0) (ext v) (by decide) (i := 0) (by decide)
    have e : nodeIdx dims1 0 0 = 0 := by decide
    rw [e] at this
    rw [this]; rfl
  have hsc1 : ∀ v : Fin dims1.M → ℝ, scatter dims1 1 (ext v) 0 = 0 := by
    intro v
    refine scatter_off dims1 (ext v) fun i hi => ?_
    have : i = 0 := by have : dims1.M = 1 := rfl; omega
    subst this
    decide
  have hmy : ∀ w : Fin dims1.VAR → ℝ, (mayerOnly.cbs.mayerAD (node dims1 (ext w) 0) (o.time 0) ⟨0, fun _ => 0⟩).der 0 = 2 * ext w 0 := by
    intro w
    have e : node dims1 (ext w) 0 0 = ext w 0 := by rw [node_eq]; rfl
    show (if (0 : Fin dims1.M) = 0 then (1 : ℝ) else 0) * (2 * node dims1 (ext w) 0 0) = _
    rw [if_pos rfl, e]; ring
  have val : (costGradient dims1 (chebApprox 1) mayerOnly.cbs o1 (ext x)).2.1 0 = 2 := by
    rw [h]
    have eS : dims1.S = 1 := rfl
    have eN : dims1.N = 1 := rfl
    simp only [eS, eN, Finset.sum_range_succ, Finset.sum_range_zero, hts, hw 0 (by norm_num), hw 1 (by norm_num)]
    simp only [Nat.zero_mul, Nat.zero_add, hsc0, hsc1, hmy, hy]
    have : ext x 0 = 0 := by show (if h : _ then x ⟨0, h⟩ else 0) = 0; rw [dif_pos hv]
    rw [this]; norm_num
  have g0 : IsGradient (fun z => cost dims1 (chebApprox 1) mayerOnly.cbs o1 (ext z)) (fun _ => 0) x := by
    have e1 : (fun z : Fin dims1.VAR → ℝ => cost dims1 (chebApprox 1) mayerOnly.cbs o1 (ext z))
        = fun z => (.un .abs2 (.var 0) : Expr dims1.M).eval (node dims1 (ext z) 0) := by
      funext z; exact cost_default dims1 _ mayerOnly.cbs o1 (ext z) (fun z t old => rfl)
    rw [e1]
    have hg := isGradient_node dims1 (k := 0) (by decide) (x := x)
      (ad_gradient (.un .abs2 (.var 0) : Expr dims1.M) (node dims1 (ext x) 0) ⟨trivial, trivial⟩).2
    have e2 : (fun c : Fin dims1.VAR => scatter dims1 0 (ext ((.un .abs2 (.var 0) : Expr dims1.M).eval (seed (node dims1 (ext x) 0))).der) c)
        = fun _ => 0 := by
      funext c
      refine Finset.sum_eq_zero fun i hi => ?_
      have hi' : i = 0 := by have := Finset.mem_range.1 hi; have : dims1.M = 1 := rfl; omega
      subst hi'
      have : ext ((.un .abs2 (.var 0) : Expr dims1.M).eval (seed (node dims1 (ext x) 0))).der 0 = 0 := by
        have := hmy x
        have e3 : ext x 0 = 0 := by show (if h : _ then x ⟨0, h⟩ else 0) = 0; rw [dif_pos hv]
        rw [e3, mul_zero] at this
        exact this
      rw [this]; split_ifs <;> rfl
    rw [e2] at hg
    exact hg
  refine ⟨val, g0, fun hbad => ?_⟩
  have := congrFun (gradient_unique hbad g0) ⟨0, hv⟩
  simp only [val] at this
  norm_num at this

/-- One state, one control, one parameter, one segment of order one. -/
def dims2 : Dims := ⟨1, 1, 1, 0, 1, 1⟩

instance : NeZero dims2.M := ⟨by decide⟩

/-- Running cost `x²`, terminal cost `p²`. -/
noncomputable def paramCost : Src dims2 where
  dyn _ _ := .assign (.var 0)
  ineq _ _ := .skip
  lag _ := .assign (.un .abs2 (.var 0))
  mayer _ := .assign (.un .abs2 (.var 2))

/-- **C77 (negative).** For a terminal cost `p²` the dense cost Hessian is wrong at every point: the entry of the parameter misses
its `2`. -/
theorem param_hessian_wrong (o : Obj dims2 ℝ) (x : Fin dims2.VAR → ℝ) :
    ∃ J q H o', costGradientHessian dims2 (chebApprox 1) paramCost.cbs o (ext x) = some (J, q, H, o') ∧
      ¬ IsHessian (fun z => cost dims2 (chebApprox 1) paramCost.cbs o (ext z)) (fun r c => H r c) x := by
  obtain ⟨J, q, H, o', e, hiff, -⟩ := cost_hessian_iff dims2 (chebApprox 1) paramCost.cbs o
    (fun k z => (.un .abs2 (.var 0) : Expr dims2.M).eval z) (fun z => (.un .abs2 (.var 2) : Expr dims2.M).eval z) x (by decide) (Or.inl (by decide))
    (fun k hk => src_lag paramCost _ _ _ rfl ⟨trivial, trivial⟩) (src_mayer paramCost _ _ _ rfl ⟨trivial, trivial⟩)
    (fun k hk => src_lag2 paramCost _ _ _ rfl ⟨trivial, trivial⟩ trivial) (src_mayer2 paramCost _ _ _ rfl ⟨trivial, trivial⟩ trivial)
  refine ⟨J, q, H, o', e, fun h => ?_⟩
  have := hiff.1 h 4 (by decide) 4 (by decide)
  unfold mayerErr at this
  rw [if_pos (by decide), if_neg (by decide), if_pos (by decide)] at this
  have hv : hesOf (paramCost.cbs.mayerAD2 (node dims2 (ext x) 0) (o.time 0) (zero2 dims2.M)) 2 2 = 2 := by
    show ((0 : ℝ) * (2 * _) + (0 * _ + 1 * 2) * 1) = 2
    norm_num
  have e2 : dims2.NX + dims2.NU + (4 - (dims2.VARX + dims2.VARU)) = 2 := by decide
  rw [e2, hv] at this
  norm_num at this

end PolyMPC.Ocp
