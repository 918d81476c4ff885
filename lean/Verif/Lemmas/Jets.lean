import Mathlib.Analysis.Analytic.Basic
import Mathlib.Analysis.Calculus.FDeriv.Analytic
import Mathlib.Analysis.Calculus.MeanValue
import Mathlib.Analysis.Normed.Module.Multilinear.Curry
import Mathlib.Tactic.Module

/-!
# Third-order expansions of curves

Used for the accuracy of the Runge-Kutta step: a curve known up to `O(h⁴)` is mapped by an analytic function to a curve known up to
`O(h⁴)`, and a differential inequality with right-hand side `O(hⁿ)` integrates to `O(hⁿ⁺¹)`.
-/

namespace PolyMPC.Jets
open Asymptotics Filter Topology

variable {E F : Type*} [NormedAddCommGroup E] [NormedSpace ℝ E] [NormedAddCommGroup F] [NormedSpace ℝ F]

/-- The curve `c` is `c0 + h c1 + h² c2 + h³ c3 + O(h⁴)` at `h = 0`. -/
def Jet (c : ℝ → E) (c0 c1 c2 c3 : E) : Prop :=
  (fun h => c h - (c0 + h • c1 + h ^ 2 • c2 + h ^ 3 • c3)) =O[𝓝 0] fun h : ℝ => h ^ 4

/-- A function with a third-order expansion at `x`: linear, quadratic and cubic terms. -/
structure Expansion (f : E → F) (x : E) where
  L : E →L[ℝ] F
  Q : E →L[ℝ] E →L[ℝ] F
  C : E →L[ℝ] E →L[ℝ] E →L[ℝ] F
  bound : (fun v => f (x + v) - (f x + L v + Q v v + C v v v)) =O[𝓝 0] fun v => ‖v‖ ^ 4
  lip : (fun p : E × E => f p.1 - f p.2) =O[𝓝 (x, x)] fun p => p.1 - p.2

/-- An analytic function has such an expansion. -/
theorem Expansion.of_analytic [CompleteSpace F] {f : E → F} {x : E} (hf : AnalyticAt ℝ f x) : Nonempty (Expansion f x) := by
  obtain ⟨p, hp⟩ := hf
  let curry2 : (ContinuousMultilinearMap ℝ (fun _ : Fin 2 => E) F) →L[ℝ] (E →L[ℝ] E →L[ℝ] F) :=
    (ContinuousLinearMap.compL ℝ E (ContinuousMultilinearMap ℝ (fun _ : Fin 1 => E) F) (E →L[ℝ] F)
      (continuousMultilinearCurryFin1 ℝ E F).toContinuousLinearEquiv.toContinuousLinearMap).comp
      (continuousMultilinearCurryLeftEquiv ℝ (fun _ : Fin 2 => E) F).toContinuousLinearEquiv.toContinuousLinearMap
  refine ⟨⟨continuousMultilinearCurryFin1 ℝ E F (p 1), curry2 (p 2), curry2.comp (p 3).curryLeft, ?_, ?_⟩⟩
  · have h := hp.isBigO_sub_partialSum_pow 4
    refine h.congr_left fun v => ?_
    congr 1
    rw [FormalMultilinearSeries.partialSum]
    simp only [Finset.sum_range_succ, Finset.sum_range_zero, zero_add]
    have h0 : p 0 (fun _ => v) = f x := by
      rw [hp.coeff_zero]
    have h1 : p 1 (fun _ => v) = continuousMultilinearCurryFin1 ℝ E F (p 1) v := by
      rw [continuousMultilinearCurryFin1_apply]
      congr 1
    have h2 : p 2 (fun _ => v) = curry2 (p 2) v v := by
      show _ = (p 2) _
      congr 1
      funext i; fin_cases i <;> rfl
    have h3 : p 3 (fun _ => v) = (curry2.comp (p 3).curryLeft) v v v := by
      show _ = (p 3) _
      congr 1
      funext i; fin_cases i <;> rfl
    rw [h0, h1, h2, h3]
  · exact hp.hasStrictFDerivAt.isBigO_sub

theorem Jet.congr {c c' : ℝ → E} {c0 c1 c2 c3 : E} (h : Jet c c0 c1 c2 c3) (e : ∀ t, c t = c' t) : Jet c' c0 c1 c2 c3 :=
  IsBigO.congr_left h fun t => by rw [e]

theorem Jet.coeff {c : ℝ → E} {c0 c1 c2 c3 d0 d1 d2 d3 : E} (h : Jet c c0 c1 c2 c3) (e0 : c0 = d0) (e1 : c1 = d1) (e2 : c2 = d2)
    (e3 : c3 = d3) : Jet c d0 d1 d2 d3 := by
  subst e0 e1 e2 e3; exact h

/-- A polynomial curve plus a fourth-order remainder. -/
theorem Jet.of_poly (c0 c1 c2 c3 : E) {g : ℝ → E} (hg : ContinuousAt g 0) :
    Jet (fun h => c0 + h • c1 + h ^ 2 • c2 + h ^ 3 • c3 + h ^ 4 • g h) c0 c1 c2 c3 := by
  have h : (fun h : ℝ => h ^ 4 • g h) =O[𝓝 0] fun h : ℝ => h ^ 4 * 1 := by
    have h1 : (fun h : ℝ => h ^ 4) =O[𝓝 0] fun h : ℝ => h ^ 4 := isBigO_refl _ _
    have h2 : g =O[𝓝 0] fun _ => (1 : ℝ) := hg.isBigO_one ℝ
    exact h1.smul h2
  refine (h.congr_left fun t => ?_).congr_right fun t => mul_one _
  beta_reduce
  abel

theorem Jet.const (c0 : E) : Jet (fun _ => c0) c0 0 0 0 :=
  (Jet.of_poly c0 0 0 0 (g := fun _ => 0) continuousAt_const).congr fun t => by simp

theorem Jet.add {c d : ℝ → E} {c0 c1 c2 c3 d0 d1 d2 d3 : E} (hc : Jet c c0 c1 c2 c3) (hd : Jet d d0 d1 d2 d3) :
    Jet (fun h => c h + d h) (c0 + d0) (c1 + d1) (c2 + d2) (c3 + d3) := by
  refine (IsBigO.add hc hd).congr_left fun t => ?_
  module

theorem Jet.smul (a : ℝ) {c : ℝ → E} {c0 c1 c2 c3 : E} (hc : Jet c c0 c1 c2 c3) :
    Jet (fun h => a • c h) (a • c0) (a • c1) (a • c2) (a • c3) := by
  refine (IsBigO.const_smul_left hc a).congr_left fun t => ?_
  simp only [Pi.smul_apply]
  module

/-- Multiplication by `a h` shifts the coefficients. -/
theorem Jet.shift (a : ℝ) {c : ℝ → E} {c0 c1 c2 c3 : E} (hc : Jet c c0 c1 c2 c3) :
    Jet (fun h => (a * h) • c h) 0 (a • c0) (a • c1) (a • c2) := by
  have h1 : (fun h : ℝ => a * h) =O[𝓝 0] fun _ => (1 : ℝ) :=
    (continuous_const.mul continuous_id).continuousAt.isBigO_one ℝ
  have h2 := h1.smul hc
  have h3 : (fun h : ℝ => h ^ 4 • (a • c3)) =O[𝓝 0] fun h : ℝ => h ^ 4 * 1 :=
    (isBigO_refl (fun h : ℝ => h ^ 4) (𝓝 0)).smul (isBigO_const_const (a • c3) (one_ne_zero (α := ℝ)) _)
  have h4 := (h2.congr_right fun t => (one_mul _ : (1 : ℝ) • t ^ 4 = t ^ 4)).add (h3.congr_right fun t => mul_one _)
  refine h4.congr_left fun t => ?_
  module

theorem Jet.tendsto {c : ℝ → E} {c0 c1 c2 c3 : E} (hc : Jet c c0 c1 c2 c3) : Tendsto c (𝓝 0) (𝓝 c0) := by
  have h1 : Tendsto (fun h : ℝ => h ^ 4) (𝓝 0) (𝓝 0) := by
    have : ContinuousAt (fun h : ℝ => h ^ 4) 0 := by fun_prop
    simpa [ContinuousAt] using this
  have h2 := hc.trans_tendsto h1
  have h3 : Tendsto (fun h : ℝ => c0 + h • c1 + h ^ 2 • c2 + h ^ 3 • c3) (𝓝 0) (𝓝 c0) := by
    have : ContinuousAt (fun h : ℝ => c0 + h • c1 + h ^ 2 • c2 + h ^ 3 • c3) 0 := by fun_prop
    simpa [ContinuousAt] using this
  have h4 := h2.add h3
  simpa using h4

/-- The image of a curve under a function with a third-order expansion at the starting point. -/
theorem Jet.comp {f : E → F} {x : E} (X : Expansion f x) {c : ℝ → E} {c1 c2 c3 : E} (hc : Jet c x c1 c2 c3) :
    Jet (fun h => f (c h)) (f x) (X.L c1) (X.L c2 + X.Q c1 c1) (X.L c3 + X.Q c1 c2 + X.Q c2 c1 + X.C c1 c1 c1) := by
  let w : ℝ → E := fun h => h • c1 + h ^ 2 • c2 + h ^ 3 • c3
  have hw0 : Tendsto w (𝓝 0) (𝓝 0) := by
    have : ContinuousAt w 0 := by fun_prop
    have h0 : w 0 = 0 := by simp [w]
    simpa [ContinuousAt, h0] using this
  -- the polynomial curve
  have h1 : (fun h => f (c h) - f (x + w h)) =O[𝓝 0] fun h : ℝ => h ^ 4 := by
    have ht : Tendsto (fun h => (c h, x + w h)) (𝓝 0) (𝓝 (x, x)) := by
      rw [nhds_prod_eq]
      refine hc.tendsto.prodMk ?_
      simpa using tendsto_const_nhds.add hw0
    refine (X.lip.comp_tendsto ht).trans ?_
    refine IsBigO.congr_left hc fun t => ?_
    simp only [Function.comp, w]; abel
  have h2 : (fun h => f (x + w h) - (f x + X.L (w h) + X.Q (w h) (w h) + X.C (w h) (w h) (w h))) =O[𝓝 0] fun h : ℝ => h ^ 4 := by
    refine (X.bound.comp_tendsto hw0).trans ?_
    have hwO : w =O[𝓝 0] fun h : ℝ => h := by
      have : (fun h : ℝ => h • (c1 + h • c2 + h ^ 2 • c3)) =O[𝓝 0] fun h : ℝ => h * 1 := by
        refine (isBigO_refl (fun h : ℝ => h) (𝓝 0)).smul ?_
        have hcont : ContinuousAt (fun h : ℝ => c1 + h • c2 + h ^ 2 • c3) 0 := by fun_prop
        exact hcont.isBigO_one ℝ
      refine (this.congr_left fun t => ?_).congr_right fun t => mul_one _
      simp only [w]; module
    exact (hwO.norm_left.pow 4)
  have h3 : Jet (fun h => f x + X.L (w h) + X.Q (w h) (w h) + X.C (w h) (w h) (w h)) (f x) (X.L c1) (X.L c2 + X.Q c1 c1)
      (X.L c3 + X.Q c1 c2 + X.Q c2 c1 + X.C c1 c1 c1) := by
    let b : ℝ → E := fun h => c2 + h • c3
    let a : ℝ → E := fun h => c1 + h • b h
    have hg : ContinuousAt (fun h => X.Q c1 c3 + X.Q c3 c1 + X.Q (b h) (b h) + X.C (b h) (a h) (a h) + X.C c1 (b h) (a h)
        + X.C c1 c1 (b h)) 0 := by
      have : Continuous b := by fun_prop
      have : Continuous a := by fun_prop
      fun_prop
    refine (Jet.of_poly _ _ _ _ hg).congr fun t => ?_
    have hwa : w t = t • a t := by simp only [w, a, b]; module
    have hab : a t = c1 + t • b t := rfl
    have hb : b t = c2 + t • c3 := rfl
    rw [hwa]
    simp only [hab]
    simp only [map_add, map_smul, add_apply, smul_apply, smul_add]
    have e1 : X.L (b t) = X.L c2 + t • X.L c3 := by rw [hb]; simp
    have e2 : X.Q c1 (b t) = X.Q c1 c2 + t • X.Q c1 c3 := by rw [hb]; simp
    have e3 : X.Q (b t) c1 = X.Q c2 c1 + t • X.Q c3 c1 := by rw [hb]; simp
    rw [e1, e2, e3]
    module
  have h4 := (h1.add h2).add h3
  refine h4.congr_left fun t => ?_
  beta_reduce
  abel

/-- A curve starting at zero whose derivative is `O(tⁿ)` is `O(tⁿ⁺¹)`. -/
theorem isBigO_of_deriv {g g' : ℝ → E} (h0 : g 0 = 0) (hd : ∀ᶠ t in 𝓝 0, HasDerivAt g (g' t) t) {n : ℕ}
    (hO : g' =O[𝓝 0] fun t : ℝ => t ^ n) : g =O[𝓝 0] fun t : ℝ => t ^ (n + 1) := by
  obtain ⟨C, hC⟩ := hO.bound
  obtain ⟨δ, hδ, hb⟩ := Metric.eventually_nhds_iff_ball.mp (hd.and hC)
  refine IsBigO.of_bound C ?_
  filter_upwards [Metric.ball_mem_nhds (0 : ℝ) hδ] with h hh
  rw [Metric.mem_ball, dist_zero_right] at hh
  have hin : ∀ t ∈ Metric.closedBall (0 : ℝ) ‖h‖, t ∈ Metric.ball (0 : ℝ) δ := by
    intro t ht
    rw [mem_closedBall_zero_iff] at ht
    rw [mem_ball_zero_iff]
    exact lt_of_le_of_lt ht hh
  have hC0 : 0 ≤ C * ‖h‖ ^ n := by
    have := (hb h (by rw [mem_ball_zero_iff]; exact hh)).2
    rw [norm_pow] at this
    exact le_trans (norm_nonneg _) this
  have key := (convex_closedBall (0 : ℝ) ‖h‖).norm_image_sub_le_of_norm_hasDerivWithin_le (f := g) (f' := g') (C := C * ‖h‖ ^ n)
    (fun t ht => (hb t (hin t ht)).1.hasDerivWithinAt) (fun t ht => by
      refine le_trans (hb t (hin t ht)).2 ?_
      rw [norm_pow]
      rw [mem_closedBall_zero_iff] at ht
      by_cases hCn : 0 ≤ C
      · exact mul_le_mul_of_nonneg_left (pow_le_pow_left₀ (norm_nonneg _) ht n) hCn
      · have h1 : C * ‖t‖ ^ n ≤ 0 := mul_nonpos_of_nonpos_of_nonneg (not_le.mp hCn).le (pow_nonneg (norm_nonneg _) n)
        exact h1.trans hC0)
    (x := 0) (y := h) (by simp) (by simp)
  rw [h0, sub_zero, sub_zero] at key
  rw [norm_pow, pow_succ, ← mul_assoc]
  exact key

end PolyMPC.Jets
