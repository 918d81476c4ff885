import Verif.Lemmas.AutoDiff
import Mathlib.Data.Fin.VecNotation

/-!
# Automatic differentiation (C53, C54, C55, C56)
-/

namespace PolyMPC.AD
open Spec Ops Filter Topology

set_option linter.unusedSectionVars false

variable {n m : ℕ}

/-! ### C53: first-order derivatives -/

/-- **C53.** Run any callback expression on seeded AD variables at a point where all its operations are defined and
differentiable: the value is the plain result and the derivative vector is the gradient of the plain callback. -/
theorem ad_gradient (e : Expr n) (x : Fin n → ℝ) (h : e.Ok x) :
    (e.eval (seed x)).val = e.eval x ∧ IsGradient (fun z => e.eval z) (e.eval (seed x)).der x :=
  Tracks.expr e (g := fun z => z) (tracks_seed x) h

/-- **C53.** Chain rule: if the arguments carry the values and gradients of functions of the point, so does the result. -/
theorem ad_chain_rule (e : Expr m) (env : Fin m → Dual n ℝ) (g : (Fin n → ℝ) → Fin m → ℝ) (x : Fin n → ℝ)
    (hv : ∀ i, (env i).val = g x i) (hd : ∀ i, IsGradient (fun z => g z i) (env i).der x) (h : e.Ok (g x)) :
    (e.eval env).val = e.eval (g x) ∧ IsGradient (fun z => e.eval (g z)) (e.eval env).der x :=
  Tracks.expr e (fun i => ⟨hv i, hd i⟩) h

/-- **C53.** The value part never depends on the derivatives and is the plain result, at every point (also where derivatives
do not exist). -/
theorem ad_value (e : Expr m) (env : Fin m → Dual n ℝ) : (e.eval env).val = e.eval fun i => (env i).val := eval_val e env

/-- **C53.** With plain numbers `min` and `max` and their mixed forms are the mathematical minimum and maximum. -/
theorem min_max_plain (x y : ℝ) : amin x y = min x y ∧ amax x y = max x y ∧ aminS x y = min x y ∧ amaxS x y = max x y ∧
    AD.sMin x y = min x y ∧ AD.sMax x y = max x y := by
  simp only [amin, amax, aminS, amaxS, AD.sMin, AD.sMax, Ops.re, Ops.lit, min_def, max_def]
  refine ⟨?_, ?_, ?_, ?_, ?_, ?_⟩ <;> first | trivial | (split_ifs <;> linarith)

/-- The gradient is unique, so the statements determine the derivative vector. -/
theorem gradient_unique {f : (Fin n → ℝ) → ℝ} {v w x : Fin n → ℝ} (hv : IsGradient f v x) (hw : IsGradient f w x) : v = w := by
  have h := HasFDerivAt.unique hv hw
  funext i
  have := congrArg (fun L : (Fin n → ℝ) →L[ℝ] ℝ => L (Pi.single i 1)) h
  simpa [gradMap_apply, Pi.single_apply] using this

/-- Non-vacuity: `sqrt(x₀) * sin(x₁) / x₁` at `(4, 1)`; all operations are defined there and the first derivative entry is
`sin 1 / 4`. -/
noncomputable def exampleExpr : Expr 2 :=
  .bin .div (.bin .mul (.un .sqrt (.var 0)) (.un .sin (.var 1))) (.var 1)

example : exampleExpr.Ok ![4, 1] ∧ (exampleExpr.eval (seed ![4, 1])).der 0 = Real.sin 1 / 4 := by
  refine ⟨⟨⟨⟨trivial, ?_⟩, ⟨trivial, trivial⟩, trivial⟩, trivial, ?_⟩, ?_⟩
  · show (0 : ℝ) < 4; norm_num
  · show (1 : ℝ) ≠ 0; norm_num
  · have h4 : Real.sqrt 4 = 2 := by rw [show (4 : ℝ) = 2 ^ 2 by norm_num]; exact Real.sqrt_sq (by norm_num)
    show ((1 * (1 / 2 / Real.sqrt 4) * Real.sin 1 + 0 * Real.cos 1 * Real.sqrt 4) * 1
      - 0 * (Real.sqrt 4 * Real.sin 1)) * (1 / (1 * 1)) = Real.sin 1 / 4
    rw [h4]; ring

/-! ### C54: second-order derivatives -/

/-- **C54.** Run any callback expression without `pow` on variables seeded for second order: the value, the gradient (twice) and
the matrix of second derivatives appear where the code reads them, and the matrix is symmetric. -/
theorem ad2_hessian (e : Expr n) (x : Fin n → ℝ) (h : e.Ok x) (hp : e.NoPow) :
    (e.eval (seed2 x)).val.val = e.eval x ∧
    IsGradient (fun z => e.eval z) (e.eval (seed2 x)).val.der x ∧
    IsGradient (fun z => e.eval z) (fun i => ((e.eval (seed2 x)).der i).val) x ∧
    IsHessian (fun z => e.eval z) (fun r i => ((e.eval (seed2 x)).der i).der r) x ∧
    ∀ i j, ((e.eval (seed2 x)).der i).der j = ((e.eval (seed2 x)).der j).der i := by
  have T : Tracks2 (e.eval (seed2 x)) (fun z => e.eval (seed z)) x := Tracks2.expr e (g := fun z => seed z) (tracks2_seed x) h hp
  have hv : (fun z => (e.eval (seed z)).val) = fun z => e.eval z := by funext z; rw [eval_val]; rfl
  have h1 : (e.eval (seed2 x)).val.val = e.eval x := T.1.1.trans (congrFun hv x)
  have h2 : IsGradient (fun z => e.eval z) (e.eval (seed2 x)).val.der x := hv ▸ T.1.2
  have hev : ∀ᶠ z in 𝓝 x, IsGradient (fun z => e.eval z) (e.eval (seed z)).der z :=
    (ok_open e h).mono fun z hz => (ad_gradient e z hz).2
  have h3 : IsGradient (fun z => e.eval z) (fun i => ((e.eval (seed2 x)).der i).val) x := by
    have e1 : (fun i => ((e.eval (seed2 x)).der i).val) = (e.eval (seed x)).der := funext fun i => (T.2 i).1
    rw [e1]; exact (ad_gradient e x h).2
  refine ⟨h1, h2, h3, ⟨fun z => (e.eval (seed z)).der, hev, fun i => (T.2 i).2⟩, ?_⟩
  -- Schwarz
  have hd : HasFDerivAt (fun z => gradMap (e.eval (seed z)).der)
      (∑ i, (gradMap ((e.eval (seed2 x)).der i).der).smulRight (ContinuousLinearMap.proj (R := ℝ) (φ := fun _ : Fin n => ℝ) i)) x := by
    show HasFDerivAt (fun z => ∑ i, (e.eval (seed z)).der i • ContinuousLinearMap.proj (R := ℝ) (φ := fun _ : Fin n => ℝ) i) _ x
    refine HasFDerivAt.fun_sum fun i _ => ?_
    have hi : HasFDerivAt (fun z => (e.eval (seed z)).der i) (gradMap ((e.eval (seed2 x)).der i).der) x := (T.2 i).2
    exact HasFDerivAt.smul_const hi (ContinuousLinearMap.proj (R := ℝ) (φ := fun _ : Fin n => ℝ) i)
  intro i j
  have hs := second_derivative_symmetric_of_eventually_of_real hev hd (Pi.single i 1) (Pi.single j 1)
  simpa [gradMap_apply, Pi.single_apply] using hs.symm

/-- Non-vacuity: for `x₀² exp(x₁)` at `(3, 0)` the mixed second derivative is `6`. -/
noncomputable def exampleExpr2 : Expr 2 := .bin .mul (.un .abs2 (.var 0)) (.un .exp (.var 1))

example : exampleExpr2.Ok ![3, 0] ∧ exampleExpr2.NoPow ∧ ((exampleExpr2.eval (seed2 ![3, 0])).der 1).der 0 = 6 := by
  refine ⟨⟨⟨trivial, trivial⟩, ⟨trivial, trivial⟩, trivial⟩, ⟨trivial, trivial⟩, ?_⟩
  show ((0 * (2 * 3) + (0 * 3 + 1 * 2) * 0) * Real.exp 0 + 0 * Real.exp 0 * (0 * (2 * 3))) +
    ((0 * Real.exp 0 + 0 * Real.exp 0 * 1) * (3 * 3) + 1 * (2 * 3) * (1 * Real.exp 0)) = 6
  rw [Real.exp_zero]; norm_num

/-! ### C55: assignment of plain numbers, floor -/

/-- **C55 (negative).** Assigning a plain number keeps the old derivatives: the result has zero derivatives only if the old value
had. -/
theorem assignScalar_keeps (old : Dual n ℝ) (c : ℝ) :
    (old.assignScalar c).val = c ∧ (old.assignScalar c).der = old.der := ⟨rfl, rfl⟩

/-- **C55 (negative).** After `y = x; y = 5;` with `x` a seeded variable, `y` claims derivative one although it is constant. -/
theorem assignScalar_not_gradient (c : ℝ) :
    ¬ IsGradient (fun _ : Fin 1 → ℝ => c) ((seed ![0] 0).assignScalar c).der ![0] := by
  intro h
  have h0 : IsGradient (fun _ : Fin 1 → ℝ => c) (fun _ => 0) ![0] := (tracks_lit c _).2
  have := congrFun (gradient_unique h h0) 0
  simp [Dual.assignScalar, seed] at this

/-- **C55.** Constructing an AD value from a plain number, in contrast, gives zero derivatives; assigning such a value is right. -/
theorem assign_lit_gradient (old : Dual n ℝ) (c : ℝ) (x : Fin n → ℝ) :
    IsGradient (fun _ => c) (old.assign (lit c)).der x := (tracks_lit c x).2

/-- **C55.** Adding a plain number in place is right. -/
theorem addAssign_gradient (d : Dual n ℝ) (f : (Fin n → ℝ) → ℝ) (c : ℝ) (x : Fin n → ℝ) (hv : d.val = f x)
    (hd : IsGradient f d.der x) :
    (d.addAssignScalar c).val = f x + c ∧ IsGradient (fun z => f z + c) (d.addAssignScalar c).der x :=
  Tracks.addConst ⟨hv, hd⟩ c

/-- **C55 (negative).** `floor` passes the derivatives of its argument through. -/
theorem floor_der (d : Dual n ℝ) : (Ops.floor d).val = (⌊d.val⌋ : ℝ) ∧ (Ops.floor d).der = d.der := by
  refine ⟨rfl, ?_⟩
  funext j
  show d.der j * 1 = d.der j
  ring

/-- **C55 (negative).** Off the integers the gradient of `floor` is zero, so the code's derivative of `floor(x)` is wrong at every
non-integer point. -/
theorem floor_not_gradient (t : ℝ) (ht : t ≠ (⌊t⌋ : ℝ)) :
    IsGradient (fun z : Fin 1 → ℝ => ((⌊z 0⌋ : ℤ) : ℝ)) (fun _ => 0) (fun _ => t) ∧
    ¬ IsGradient (fun z : Fin 1 → ℝ => ((⌊z 0⌋ : ℤ) : ℝ)) (Ops.floor (seed (fun _ : Fin 1 => t) 0)).der (fun _ => t) := by
  have h0 : IsGradient (fun z : Fin 1 → ℝ => ((⌊z 0⌋ : ℤ) : ℝ)) (fun _ => 0) (fun _ => t) := by
    refine Tracks.congr (d := lit ((⌊t⌋ : ℤ) : ℝ)) (tracks_lit ((⌊t⌋ : ℤ) : ℝ) (fun _ => t)) ?_ |>.2
    have hlt : (⌊t⌋ : ℝ) < t := lt_of_le_of_ne (Int.floor_le t) ht.symm
    have c0 : ContinuousAt (fun z : Fin 1 → ℝ => z 0) (fun _ => t) := (continuous_apply 0).continuousAt
    filter_upwards [c0.eventually (lt_mem_nhds hlt), c0.eventually (gt_mem_nhds (Int.lt_floor_add_one t))] with z h1 h2
    have : ⌊z 0⌋ = ⌊t⌋ := Int.floor_eq_iff.2 ⟨h1.le, h2⟩
    show ((⌊z 0⌋ : ℤ) : ℝ) = ((⌊t⌋ : ℤ) : ℝ)
    rw [this]
  refine ⟨h0, fun h => ?_⟩
  have := congrFun (gradient_unique h h0) 0
  rw [(floor_der _).2] at this
  simp [seed] at this

/-- **C55.** At a kink the code picks one side: `abs` at zero uses slope `+1`, `min` of equal values takes the second argument's
derivatives, `max` the first's. -/
theorem kink_choices (d e : Dual n ℝ) (h0 : d.val = 0) (he : d.val = e.val) :
    (Ops.abs d).der = d.der ∧ amin d e = e ∧ amax d e = d := by
  refine ⟨?_, ?_, ?_⟩
  · funext j
    show d.der j * (if d.val < 0 then (-1 : ℝ) else 1) = d.der j
    rw [h0, if_neg (lt_irrefl _), mul_one]
  · show (if d.val < e.val then d else e) = e
    rw [he, if_neg (lt_irrefl _)]
  · show (if e.val ≤ d.val then d else e) = d
    rw [he, if_pos le_rfl]

example : ∃ t : ℝ, t ≠ (⌊t⌋ : ℝ) := ⟨1 / 2, by
  have : ⌊(1 / 2 : ℝ)⌋ = 0 := by norm_num
  rw [this]; norm_num⟩

/-! ### C56: RBF kernel -/

theorem sqDist_gradient (x y : Fin n → ℝ) : IsGradient (fun z => sqDist z y) (fun i => 2 * (x i - y i)) x := by
  have h : HasFDerivAt (fun z : Fin n → ℝ => ∑ i, (z i - y i) * (z i - y i))
      (∑ i, ((x i - y i) • ContinuousLinearMap.proj (R := ℝ) (φ := fun _ : Fin n => ℝ) i
        + (x i - y i) • ContinuousLinearMap.proj (R := ℝ) (φ := fun _ : Fin n => ℝ) i)) x := by
    refine HasFDerivAt.fun_sum fun i _ => ?_
    have h1 : HasFDerivAt (fun z : Fin n → ℝ => z i - y i) (ContinuousLinearMap.proj (R := ℝ) (φ := fun _ : Fin n => ℝ) i) x :=
      (hasFDerivAt_apply i x).sub_const _
    exact h1.mul h1
  refine HasFDerivAt.congr_fderiv h ?_
  ext z
  simp only [gradMap_apply]
  simp [two_mul, add_mul, Finset.sum_add_distrib]

theorem rbf_gradient_fun (x y : Fin n → ℝ) : IsGradient (fun z => rbf z y) (fun i => -2 * rbf x y * (x i - y i)) x := by
  have h := (Real.hasDerivAt_exp (-sqDist x y)).comp_hasFDerivAt x (HasFDerivAt.neg (sqDist_gradient x y))
  refine HasFDerivAt.congr_fderiv h ?_
  ext z
  simp only [gradMap_apply, _root_.smul_apply, _root_.neg_apply, smul_eq_mul]
  rw [← Finset.sum_neg_distrib, Finset.mul_sum]
  exact Finset.sum_congr rfl fun i _ => by show _ = -2 * Real.exp (-sqDist x y) * _ * _; ring

/-- **C56.** On seeded variables the closed-form first-order overload returns the kernel's value and gradient. -/
theorem rbf_ad_gradient (x y : Fin n → ℝ) :
    (rbfAD (seed x) y).val = rbf x y ∧ IsGradient (fun z => rbf z y) (rbfAD (seed x) y).der x :=
  ⟨rfl, rbf_gradient_fun x y⟩

/-- **C56 (negative).** The overload ignores the derivatives of its arguments: applied to constants (zero derivatives) it still
reports the kernel's own gradient, so the chain rule fails. -/
theorem rbf_ad_ignores_chain :
    ¬ IsGradient (fun _ : Fin 1 → ℝ => rbf (fun _ : Fin 1 => (1 : ℝ)) (fun _ => 0))
      (rbfAD (fun _ : Fin 1 => (lit 1 : Dual 1 ℝ)) (fun _ => 0)).der (fun _ => 0) := by
  intro h
  have h0 : IsGradient (fun _ : Fin 1 → ℝ => rbf (fun _ : Fin 1 => (1 : ℝ)) (fun _ => 0)) (fun _ => 0) (fun _ => 0) :=
    (tracks_lit _ _).2
  have h1 := congrFun (gradient_unique h h0) 0
  have h2 : (rbfAD (fun _ : Fin 1 => (lit 1 : Dual 1 ℝ)) (fun _ => 0)).der 0
      = -2 * Real.exp (-sqDist (fun _ : Fin 1 => (1 : ℝ)) (fun _ => 0)) * (1 - 0) := rfl
  rw [h2] at h1
  have := Real.exp_pos (-sqDist (fun _ : Fin 1 => (1 : ℝ)) (fun _ => 0))
  linarith

/-- **C56.** The true second derivatives of the kernel: `k(x,y) (4 (xᵢ-yᵢ)(xⱼ-yⱼ) - 2 δᵢⱼ)`. -/
theorem rbf_hessian (x y : Fin n → ℝ) :
    IsHessian (fun z => rbf z y) (fun r i => rbf x y * (4 * (x r - y r) * (x i - y i) - 2 * if r = i then 1 else 0)) x := by
  refine ⟨fun z i => -2 * rbf z y * (z i - y i), Eventually.of_forall fun z => rbf_gradient_fun z y, fun i => ?_⟩
  have h1 : HasFDerivAt (fun z : Fin n → ℝ => z i - y i) (ContinuousLinearMap.proj (R := ℝ) (φ := fun _ : Fin n => ℝ) i) x :=
    (hasFDerivAt_apply i x).sub_const _
  have h2 := (HasFDerivAt.const_mul (rbf_gradient_fun x y) (-2)).mul h1
  refine HasFDerivAt.congr_fderiv h2 ?_
  ext z
  simp only [gradMap_apply, _root_.smul_apply, _root_.add_apply, smul_eq_mul, ContinuousLinearMap.proj_apply]
  have e : ∀ r, rbf x y * (4 * (x r - y r) * (x i - y i) - 2 * if r = i then 1 else 0) * z r
      = (x i - y i) * (-2 * (-2 * rbf x y * (x r - y r) * z r)) + (if r = i then -2 * rbf x y * z r else 0) := by
    intro r; split <;> ring
  rw [Finset.sum_congr rfl fun r _ => e r, Finset.sum_add_distrib, ← Finset.mul_sum, ← Finset.mul_sum]
  simp only [Finset.sum_ite_eq', Finset.mem_univ, if_true]
  ring

theorem hessian_unique {f : (Fin n → ℝ) → ℝ} {H H' : Fin n → Fin n → ℝ} {x : Fin n → ℝ} (h : IsHessian f H x)
    (h' : IsHessian f H' x) : H = H' := by
  obtain ⟨g, hg, hH⟩ := h
  obtain ⟨g', hg', hH'⟩ := h'
  have e : g =ᶠ[𝓝 x] g' := by
    filter_upwards [hg, hg'] with z h1 h2 using gradient_unique h1 h2
  funext r i
  have h2 : IsGradient (fun z => g z i) (fun r => H' r i) x :=
    HasFDerivAt.congr_of_eventuallyEq (hH' i) (e.mono fun z hz => by show g z i = g' z i; rw [hz])
  exact congrFun (gradient_unique (hH i) h2) r

/-- **C56 (negative).** The closed-form second-order overload returns a matrix that is never the kernel's second derivative
(for at least one variable): every diagonal entry is off by `k(x,y)`. -/
theorem rbf_ad2_not_hessian (junk : Fin (n + 1) → ℝ) (x y : Fin (n + 1) → ℝ) :
    ¬ IsHessian (fun z => rbf z y) (fun r i => ((rbfAD2 junk (seed2 x) y).der i).der r) x := by
  intro h
  have h1 := congrFun (congrFun (hessian_unique h (rbf_hessian x y)) 0) 0
  have h2 : ((rbfAD2 junk (seed2 x) y).der 0).der 0
      = Real.exp (-sqDist x y) * (4 * (x 0 - y 0) * (x 0 - y 0) - if (0 : Fin (n + 1)) = 0 then 1 else 0) := rfl
  rw [h2, if_pos rfl] at h1
  have h3 : rbf x y = Real.exp (-sqDist x y) := rfl
  rw [h3] at h1
  have := Real.exp_pos (-sqDist x y)
  nlinarith

/-- **C56.** Its value and first derivatives are right. -/
theorem rbf_ad2_value_gradient (junk x y : Fin n → ℝ) :
    (rbfAD2 junk (seed2 x) y).val.val = rbf x y ∧ IsGradient (fun z => rbf z y) (rbfAD2 junk (seed2 x) y).val.der x :=
  ⟨rfl, rbf_gradient_fun x y⟩

end PolyMPC.AD
