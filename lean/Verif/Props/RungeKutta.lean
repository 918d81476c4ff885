import Mathlib.Analysis.Complex.Exponential
import Mathlib.Algebra.Polynomial.Eval.Degree
import Mathlib.Algebra.Polynomial.Derivative
import Mathlib.Algebra.CharP.Defs
import Mathlib.Analysis.Calculus.Deriv.Pow
import Mathlib.Analysis.Calculus.Deriv.Inv
import Mathlib.Tactic.Module
import Mathlib.Tactic.LinearCombination
import Verif.Lemmas.Jets
import Verif.Model.CasadiMath
import Verif.Spec.CasadiMath

/-!
# C57, C90, C91: the Runge-Kutta routines and the `ODESolver` front end
-/

set_option linter.unusedSectionVars false

namespace PolyMPC.Util
open Spec Polynomial

section
variable {K V W U P : Type*} [Field K] [CharZero K] [AddCommGroup V] [Module K V] [AddCommGroup W] [Module K W]

/-- The two routines are the same step. -/
theorem rk4Solve_eq (rhs : V → U → P → V) (x : V) (u : U) (p : P) (h : K) :
    rk4Solve rhs x u p h = rk4Symbolic x (u, p) (fun x up => rhs x up.1 up.2) h := rfl

/-- C57. For affine dynamics `A x + b` the step is the fourth-order Taylor polynomial of the exact solution
`exp (h A) x + ∫₀ʰ exp (s A) b ds`. -/
theorem rk4_affine (A : V →ₗ[K] V) (b : V) (rhs : V → U → P → V) (u : U) (p : P) (hf : ∀ x, rhs x u p = A x + b) (x : V) (h : K) :
    rk4Solve rhs x u p h = expTaylor 4 A h x + expIntTaylor 4 A h b := by
  simp only [rk4Solve, hf, expTaylor, expIntTaylor, Finset.sum_range_succ, Finset.sum_range_zero, Nat.factorial, pow_succ, pow_zero,
    Module.End.mul_apply, Module.End.one_apply, map_add, map_smul]
  push_cast
  module

/-- C57. In particular for linear dynamics. -/
theorem rk4_linear (A : V →ₗ[K] V) (rhs : V → U → P → V) (u : U) (p : P) (hf : ∀ x, rhs x u p = A x) (x : V) (h : K) :
    rk4Solve rhs x u p h = expTaylor 4 A h x := by
  rw [rk4_affine A 0 rhs u p (fun x => by rw [hf, add_zero])]
  simp [expIntTaylor]

/-- C57. A zero step returns the state, and an equilibrium stays where it is. -/
theorem rk4_zero (rhs : V → U → P → V) (x : V) (u : U) (p : P) : rk4Solve rhs x u p (0 : K) = x := by
  simp [rk4Solve]

theorem rk4_equilibrium {rhs : V → U → P → V} {x : V} {u : U} {p : P} (hx : rhs x u p = 0) (h : K) : rk4Solve rhs x u p h = x := by
  simp [rk4Solve, hx]

/-- C57. For a right-hand side depending only on a clock variable the step is Simpson's rule. -/
theorem rk4_clock (g : K → K) (rhs : K × K → U → P → K × K) (u : U) (p : P) (hf : ∀ s, rhs s u p = (1, g s.1)) (t0 y0 h : K) :
    rk4Solve rhs (t0, y0) u p h = (t0 + h, y0 + h / 6 * (g t0 + 4 * g (t0 + h / 2) + g (t0 + h))) := by
  simp only [rk4Solve, hf, Prod.smul_mk, Prod.mk_add_mk, smul_eq_mul, mul_one]
  refine Prod.ext ?_ ?_
  · simp only; ring
  · simp only
    rw [show (1 / 2 * h : K) = h / 2 by ring]
    ring

/-- C57. It is exact when the clock function is a polynomial of degree at most three: the second component moves by the difference of an
antiderivative. -/
theorem rk4_simpson (G : K[X]) (hG : G.natDegree ≤ 4) (rhs : K × K → U → P → K × K) (u : U) (p : P)
    (hf : ∀ s, rhs s u p = (1, (derivative G).eval s.1)) (t0 y0 h : K) :
    rk4Solve rhs (t0, y0) u p h = (t0 + h, y0 + (G.eval (t0 + h) - G.eval t0)) := by
  rw [rk4_clock (fun t => (derivative G).eval t) rhs u p hf]
  have hsum : G = ∑ i ∈ Finset.range 5, C (G.coeff i) * X ^ i := by
    conv_lhs => rw [G.as_sum_range_C_mul_X_pow' (by omega : G.natDegree < 5)]
  generalize G.coeff = c at hsum
  refine Prod.ext rfl ?_
  rw [hsum]
  simp only [Finset.sum_range_succ, Finset.sum_range_zero, derivative_add, derivative_C_mul, derivative_X_pow, eval_add, eval_mul, eval_C,
    eval_pow, eval_X, zero_add]
  simp
  ring

/-- C57. The step commutes with affine changes of coordinates: if `y = T x + c` turns `f` into `g`, it turns the step of `f` into the step
of `g`. -/
theorem rk4_coordinates (T : V →ₗ[K] W) (c : W) {f : V → U → P → V} {g : W → U → P → W} {u : U} {p : P}
    (hfg : ∀ x, T (f x u p) = g (T x + c) u p) (x : V) (h : K) :
    T (rk4Solve f x u p h) + c = rk4Solve g (T x + c) u p h := by
  have e : ∀ (a : K) (k : V), T (x + a • k) + c = T x + c + a • T k := by
    intro a k; rw [map_add, map_smul]; abel
  simp only [rk4Solve, ← hfg, ← e]
  simp only [map_add, map_smul]
  abel

/-- C57. Every affine conserved quantity of the dynamics is conserved by the step, whatever the step size. -/
theorem rk4_conserved (T : V →ₗ[K] W) {f : V → U → P → V} {u : U} {p : P} (hf : ∀ x, T (f x u p) = 0) (x : V) (h : K) :
    T (rk4Solve f x u p h) = T x := by
  have := rk4_coordinates T 0 (g := fun _ _ _ => 0) (f := f) (u := u) (p := p) (fun x => by rw [hf]) x h
  rw [add_zero, add_zero] at this
  rw [this]
  simp [rk4Solve]

end

/-- C57. On the test equation `x' = λ x` the relative error of one step is at most `|hλ|⁵ / 100` when `|hλ| ≤ 1`. -/
theorem rk4_test_equation {U P : Type*} (l : ℂ) (rhs : ℂ → U → P → ℂ) (u : U) (p : P) (hf : ∀ x, rhs x u p = l * x) (x : ℂ) (h : ℂ)
    (hz : ‖h * l‖ ≤ 1) : ‖Complex.exp (h * l) * x - rk4Solve rhs x u p h‖ ≤ ‖h * l‖ ^ 5 / 100 * ‖x‖ := by
  have e : rk4Solve rhs x u p h = (∑ m ∈ Finset.range 5, (h * l) ^ m / (m.factorial : ℂ)) * x := by
    simp only [rk4Solve, hf, smul_eq_mul, Finset.sum_range_succ, Finset.sum_range_zero, Nat.factorial]
    push_cast
    ring
  rw [e, ← sub_mul, norm_mul]
  refine mul_le_mul_of_nonneg_right ?_ (norm_nonneg _)
  refine (Complex.exp_bound hz (n := 5) (by norm_num)).trans (le_of_eq ?_)
  norm_num [Nat.factorial]
  ring

section
open Asymptotics Filter Topology Jets
variable {E U P : Type*} [NormedAddCommGroup E] [NormedSpace ℝ E] [CompleteSpace E]

/-- C90. The step is accurate of order four for nonlinear dynamics: if the right-hand side is analytic at the state, for the control and
parameter held constant, and `y` solves the differential equation from that state, one step of length `h` differs from `y h` by `O(h⁵)`. -/
theorem rk4_order (rhs : E → U → P → E) (u : U) (p : P) {x : E} (hf : AnalyticAt ℝ (fun x => rhs x u p) x) {y : ℝ → E} (hy0 : y 0 = x)
    (hy : ∀ᶠ t in 𝓝 0, HasDerivAt y (rhs (y t) u p) t) :
    (fun h => rk4Solve rhs x u p h - y h) =O[𝓝 0] fun h : ℝ => h ^ 5 := by
  obtain ⟨X⟩ := Expansion.of_analytic hf
  let f : E → E := fun x => rhs x u p
  let f0 : E := f x
  let a : E := X.L f0
  let q : E := X.Q f0 f0
  -- the exact solution's expansion
  let c2 : E := (1 / 2 : ℝ) • a
  let c3 : E := (1 / 6 : ℝ) • (X.L a + (2 : ℝ) • q)
  let c4 : E := (1 / 4 : ℝ) • (X.L c3 + X.Q f0 c2 + X.Q c2 f0 + X.C f0 f0 f0)
  let S : ℝ → E := fun h => x + h • f0 + h ^ 2 • c2 + h ^ 3 • c3 + h ^ 4 • c4
  have hS : Jet S x f0 c2 c3 := Jet.of_poly x f0 c2 c3 (g := fun _ => c4) continuousAt_const
  have hSd : ∀ t, HasDerivAt S (f0 + (2 * t) • c2 + (3 * t ^ 2) • c3 + (4 * t ^ 3) • c4) t := by
    intro t
    have h1 : HasDerivAt (fun h : ℝ => h • f0) ((1 : ℝ) • f0) t := (hasDerivAt_id t).smul_const f0
    have h2 : HasDerivAt (fun h : ℝ => h ^ 2 • c2) (((2 : ℕ) * t ^ (2 - 1) : ℝ) • c2) t := (hasDerivAt_pow 2 t).smul_const c2
    have h3 : HasDerivAt (fun h : ℝ => h ^ 3 • c3) (((3 : ℕ) * t ^ (3 - 1) : ℝ) • c3) t := (hasDerivAt_pow 3 t).smul_const c3
    have h4 : HasDerivAt (fun h : ℝ => h ^ 4 • c4) (((4 : ℕ) * t ^ (4 - 1) : ℝ) • c4) t := (hasDerivAt_pow 4 t).smul_const c4
    refine ((((h1.const_add x).add h2).add h3).add h4).congr_deriv ?_
    norm_num
  have hfS := Jet.comp X hS
  have hres : (fun t => f (S t) - (f0 + (2 * t) • c2 + (3 * t ^ 2) • c3 + (4 * t ^ 3) • c4)) =O[𝓝 0] fun t : ℝ => t ^ 4 := by
    refine IsBigO.congr_left hfS fun t => ?_
    have e2 : (2 : ℝ) • c2 = X.L f0 := by simp only [c2, a]; module
    have e3 : (3 : ℝ) • c3 = X.L c2 + X.Q f0 f0 := by simp only [c3, c2, a, q, map_smul]; module
    have e4 : (4 : ℝ) • c4 = X.L c3 + X.Q f0 c2 + X.Q c2 f0 + X.C f0 f0 f0 := by simp only [c4]; module
    rw [← e2, ← e3, ← e4]
    simp only [f0, f]
    module
  -- the error of the expansion along the solution
  have hyc : Tendsto y (𝓝 0) (𝓝 x) := by
    have := (hy.self_of_nhds).continuousAt
    rw [ContinuousAt, hy0] at this
    exact this
  let e : ℝ → E := fun t => y t - S t
  have he0 : e 0 = 0 := by simp [e, S, hy0]
  have hed : ∀ᶠ t in 𝓝 0, HasDerivAt e (f (y t) - (f0 + (2 * t) • c2 + (3 * t ^ 2) • c3 + (4 * t ^ 3) • c4)) t := by
    filter_upwards [hy] with t ht
    exact ht.sub (hSd t)
  have hlip : (fun t => f (y t) - f (S t)) =O[𝓝 0] e := by
    have ht : Tendsto (fun t => (y t, S t)) (𝓝 0) (𝓝 (x, x)) := by
      rw [nhds_prod_eq]; exact hyc.prodMk hS.tendsto
    exact X.lip.comp_tendsto ht
  have boot : ∀ n : ℕ, n ≤ 4 → (e =O[𝓝 0] fun t : ℝ => t ^ n) → e =O[𝓝 0] fun t : ℝ => t ^ (n + 1) := by
    intro n hn hO
    refine isBigO_of_deriv he0 hed ?_
    have h4 : (fun t : ℝ => t ^ 4) =O[𝓝 0] fun t : ℝ => t ^ n := by
      refine IsBigO.of_bound 1 ?_
      filter_upwards [Metric.ball_mem_nhds (0 : ℝ) one_pos] with t ht
      rw [mem_ball_zero_iff] at ht
      rw [one_mul, norm_pow, norm_pow]
      exact pow_le_pow_of_le_one (norm_nonneg _) ht.le hn
    refine ((hlip.trans hO).add (hres.trans h4)).congr_left fun t => ?_
    abel
  have he : e =O[𝓝 0] fun t : ℝ => t ^ 5 := by
    have h0 : e =O[𝓝 0] fun t : ℝ => t ^ 0 := by
      have : Tendsto e (𝓝 0) (𝓝 0) := by
        have := hyc.sub hS.tendsto
        rwa [sub_self] at this
      simpa using this.isBigO_one ℝ
    exact boot 4 (by omega) (boot 3 (by omega) (boot 2 (by omega) (boot 1 (by omega) (boot 0 (by omega) h0))))
  -- the stages
  let k1 : E := f x
  have j1 : Jet (fun _ : ℝ => k1) f0 0 0 0 := Jet.const _
  have s2 := (Jet.const x).add (j1.shift (1 / 2))
  have j2 := Jet.comp X (s2.coeff (add_zero x) rfl rfl rfl)
  have s3 := (Jet.const x).add (j2.shift (1 / 2))
  have j3 := Jet.comp X (s3.coeff (add_zero x) rfl rfl rfl)
  have s4 := (Jet.const x).add (j3.shift 1)
  have j4 := Jet.comp X (s4.coeff (add_zero x) rfl rfl rfl)
  have jsum := ((j1.add (j2.smul 2)).add (j3.smul 2)).add j4
  have hphi := (isBigO_refl (fun h : ℝ => h / 6) (𝓝 0)).smul jsum
  have hdiff : (fun h => rk4Solve rhs x u p h - S h) =O[𝓝 0] fun h : ℝ => h ^ 5 := by
    have hr : (fun h : ℝ => h / 6 * h ^ 4) =O[𝓝 0] fun h : ℝ => h ^ 5 := by
      refine IsBigO.of_bound (1 / 6) (Eventually.of_forall fun h => le_of_eq ?_)
      rw [show h / 6 * h ^ 4 = 1 / 6 * h ^ 5 by ring, norm_mul]
      norm_num
    refine (hphi.trans hr).congr_left fun h => ?_
    simp only [rk4Solve, S, c4, c3, c2, a, q, f0, f, k1, map_add, map_smul, map_zero, smul_apply, zero_add, add_zero, smul_zero,
      zero_apply, one_mul, one_smul]
    module
  refine (hdiff.sub he).congr_left fun h => ?_
  simp only [e]
  abel

end

/-! ### C91: the front end -/

section
variable {K V U P : Type*} [Field K] [AddCommGroup V] [Module K V]

/-- C91. `solve` returns a state exactly if the method is RK4, or it is CVODES, the object was constructed for CVODES, and CVODES
succeeded; in every other case the caller receives an empty matrix and no error. -/
theorem solve_state_iff (S : ODESolver K V U P) (x : V) (u : U) (p : P) (dt : K) (y : V) :
    S.solve x u p dt = .state y ↔
      (S.method = 0 ∧ y = rk4Solve S.rhs x u p dt) ∨ (S.method = 1 ∧ S.built = 1 ∧ S.cvodes x u dt p = some y) := by
  unfold ODESolver.solve
  by_cases h0 : S.method = 0
  · rw [if_pos h0]
    constructor
    · intro h; left; exact ⟨h0, (OdeResult.state.inj h).symm⟩
    · rintro (⟨_, rfl⟩ | ⟨h1, _⟩)
      · rfl
      · omega
  · rw [if_neg h0]
    by_cases h1 : S.method = 1
    · rw [if_pos h1]
      by_cases hb : S.built = 1
      · rw [if_pos hb]
        cases hc : S.cvodes x u dt p with
        | none => simp [h0]
        | some z =>
          constructor
          · intro h; right; exact ⟨h1, hb, by rw [OdeResult.state.inj h]⟩
          · rintro (⟨h, _⟩ | ⟨_, _, h⟩)
            · exact absurd h h0
            · rw [Option.some.inj h]
      · rw [if_neg hb]; simp [h0, hb]
    · rw [if_neg h1]; simp [h0, h1]

/-- C91. Without the option `method` the solver is CVODES. -/
theorem default_method (rhs : V → U → P → V) (cv : V → U → K → P → Option V) (x : V) (u : U) (p : P) (dt : K) (y : V) :
    (ODESolver.make rhs cv none).solve x u p dt = .state y ↔ cv x u dt p = some y := by
  rw [solve_state_iff]
  simp [ODESolver.make]

/-- C91. Switching an RK4 object to CVODES after construction never yields a state, whatever the integrator would do. -/
theorem switch_to_cvodes (rhs : V → U → P → V) (cv : V → U → K → P → Option V) (x : V) (u : U) (p : P) (dt : K) :
    ((ODESolver.make rhs cv (some 0)).setMethod 1).solve x u p dt = .empty := by
  simp [ODESolver.make, ODESolver.setMethod, ODESolver.solve]

/-- C91. Switching a CVODES object to RK4 works, and repeated switching depends only on the last method chosen. -/
theorem switch_last (S : ODESolver K V U P) (ms : List ℤ) (m : ℤ) (x : V) (u : U) (p : P) (dt : K) :
    ((ms ++ [m]).foldl ODESolver.setMethod S).solve x u p dt = (S.setMethod m).solve x u p dt := by
  rw [List.foldl_append]
  have : ∀ (ms : List ℤ) (S : ODESolver K V U P), ∃ m', ms.foldl ODESolver.setMethod S = { S with method := m' } := by
    intro ms
    induction ms with
    | nil => intro S; exact ⟨S.method, rfl⟩
    | cons a ms ih =>
      intro S
      obtain ⟨m', h⟩ := ih (S.setMethod a)
      exact ⟨m', h⟩
  obtain ⟨m', h⟩ := this ms S
  rw [h]
  rfl

end

/-- Non-vacuity: the logistic equation, a step of one half from one third. -/
example : rk4Solve (fun (x : ℚ) (_ _ : Unit) => x * (1 - x)) (1 / 3) () () (0 : ℚ) = 1 / 3 ∧
    rk4Solve (fun (x : ℚ) (_ _ : Unit) => 2 * x + 1) 1 () () (1 : ℚ) = 10 := by
  decide +kernel

/-- Non-vacuity of the order theorem: `x' = x²` from one, solved by `1/(1-t)`. -/
example : (fun h : ℝ => rk4Solve (fun (x : ℝ) (_ _ : Unit) => x ^ 2) 1 () () h - 1 / (1 - h)) =O[nhds 0] fun h : ℝ => h ^ 5 := by
  refine rk4_order (fun (x : ℝ) (_ _ : Unit) => x ^ 2) () () ?_ (by norm_num) ?_
  · fun_prop
  · filter_upwards [Metric.ball_mem_nhds (0 : ℝ) one_pos] with t ht
    have hne : (1 : ℝ) - t ≠ 0 := by
      rw [mem_ball_zero_iff] at ht
      have := (abs_lt.mp ht).2
      linarith
    have := ((hasDerivAt_id t).const_sub 1).inv hne
    refine (this.congr_of_eventuallyEq (Filter.Eventually.of_forall fun s => ?_)).congr_deriv ?_
    · simp
    · simp

end PolyMPC.Util
