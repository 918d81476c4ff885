import Verif.Props.MpcRest

/-!
# C237: neither the unit of time nor, for problems that do not depend on time, its origin matter

Two optimal control problems whose dynamics and running costs agree after multiplication with the length of their horizons, and whose path constraints and terminal costs agree, are
the same problem for the solver. So a problem that is written in milliseconds has the solution of the one written in seconds, and the horizon of a problem that does not depend on time
can be moved.
-/

set_option linter.unusedSectionVars false
set_option linter.unusedVariables false

namespace PolyMPC.MpcSqp
open Ocp Mpc Spec QuasiNewton
open Matrix hiding ext
open AD hiding Dual

variable {d : Dims} {A : Approx ℝ} {cb cb' : Cbs d ℝ} {o o' : Obj d ℝ} {f f' g g' : ℕ → ℕ → (Fin d.M → ℝ) → ℝ} {L L' : ℕ → (Fin d.M → ℝ) → ℝ} {m : (Fin d.M → ℝ) → ℝ} {sc : Scratch d}

/-- Dynamics and running costs agree after multiplication with the horizons, path constraints agree. -/
structure SameScaled (d : Dims) (T T' : ℝ) (f f' g g' : ℕ → ℕ → (Fin d.M → ℝ) → ℝ) (L L' : ℕ → (Fin d.M → ℝ) → ℝ) : Prop where
  dyn : ∀ k < d.NN, ∀ i < d.NX, ∀ z, T * f k i z = T' * f' k i z
  ineq : ∀ k < d.NN, ∀ i < d.NG, ∀ z, g k i z = g' k i z
  lag : ∀ k < d.NN, ∀ z, T * L k z = T' * L' k z

theorem tScale_mul {a b : ℝ} (h : (o.tStop - o.tStart) * a = (o'.tStop - o'.tStart) * b) : tScale d o * a = tScale d o' * b := by
  unfold tScale
  rw [div_mul_eq_mul_div, div_mul_eq_mul_div, h]

/-- **C237.** The solver gets the same problem: the same cost, constraints and derivatives. -/
theorem problem_scaled (hS : 1 ≤ d.S) (hN : 1 ≤ d.N) (hsk : SkewEnds d A) (hU : d.NU ≤ d.NX) (hVX : d.NX ≤ d.VARU + d.NP ∨ d.NU = 0) (h : Exact cb o.time f g L m)
    (h' : Exact cb' o'.time f' g' L' m) (hs : SameScaled d (o.tStop - o.tStart) (o'.tStop - o'.tStart) f f' g g' L L') : problem A cb o sc = problem A cb' o' sc := by
  have p := fun x => problem_parts (sc := sc) hS hN hsk h x
  have p' := fun x => problem_parts (sc := sc) hS hN hsk h' x
  have ec : (problem A cb o sc).cost = (problem A cb' o' sc).cost := by
    funext x
    rw [cost_closed_form h, cost_closed_form h']
    congr 1
    refine Finset.sum_congr rfl fun s hs' => Finset.sum_congr rfl fun j hj => ?_
    have hk := node_lt d (Finset.mem_range.1 hs') (show j ≤ d.N by have := Finset.mem_range.1 hj; omega)
    have := tScale_mul (o := o) (o' := o') (d := d) (hs.lag _ hk (node d (ext x) (s * d.N + j)))
    linear_combination A.w j * this
  have he : ∀ var, ∀ r < d.NEQ, equalities d A cb o sc.junk var sc.c0 r = equalities d A cb' o' sc.junk var sc.c0 r := by
    intro var r hr
    obtain ⟨k, i, hk, hi, rfl⟩ := blk_split hr
    rw [equalities_at d A cb o sc.junk var sc.c0 (fun k i => f k i (node d var k)) (fun k hk old i hi => (h.dyn k hk 0).plain _ old i hi) hk hi,
      equalities_at d A cb' o' sc.junk var sc.c0 (fun k i => f' k i (node d var k)) (fun k hk old i hi => (h'.dyn k hk 0).plain _ old i hi) hk hi,
      tScale_mul (hs.dyn k hk i hi _)]
  have hi : ∀ var c0 c0', ∀ r < d.NINEQ, inequalities d cb o var c0 r = inequalities d cb' o' var c0' r := by
    intro var c0 c0' r hr
    obtain ⟨k, i, hk, hi, rfl⟩ := blk_split hr
    rw [inequalities_at d cb o var c0 (fun k i => g k i (node d var k)) (fun k hk old i hi => (h.ineq k hk 0).plain _ old i hi) hk hi,
      inequalities_at d cb' o' var c0' (fun k i => g' k i (node d var k)) (fun k hk old i hi => (h'.ineq k hk 0).plain _ old i hi) hk hi]
    exact hs.ineq k hk i hi _
  have hk : ∀ var, ∀ r < d.NEQ + d.NINEQ, constraints d A cb o sc.junk var sc.c0 r = constraints d A cb' o' sc.junk var sc.c0 r := by
    intro var r hr
    rcases Nat.lt_or_ge r d.NEQ with h1 | h1
    · rw [constraints_eq_part d A cb o sc.junk var sc.c0 h1, constraints_eq_part d A cb' o' sc.junk var sc.c0 h1, he var r h1]
    · obtain ⟨q, rfl⟩ : ∃ q, r = d.NEQ + q := ⟨r - d.NEQ, by omega⟩
      have hq : q < d.NINEQ := by omega
      obtain ⟨c1, e1⟩ := constraints_ineq_part d A cb o sc.junk var sc.c0 hq
      obtain ⟨c2, e2⟩ := constraints_ineq_part d A cb' o' sc.junk var sc.c0 hq
      rw [e1, e2, hi var c1 c2 q hq]
  have hl : ∀ x : Fin d.VAR → ℝ, ∀ lam, lagrangian d A cb o sc.junk (ext x) lam sc.c0 = lagrangian d A cb' o' sc.junk (ext x) lam sc.c0 := by
    intro x lam
    unfold lagrangian
    dsimp only
    have := congrFun ec x
    rw [show cost d A cb o (ext x) = cost d A cb' o' (ext x) from this]
    congr 2
    exact Finset.sum_congr rfl fun i hi => by rw [hk _ i (Finset.mem_range.1 hi)]
  have ee : (problem A cb o sc).eq = (problem A cb' o' sc).eq := by funext x i; exact he _ i i.2
  have ei : (problem A cb o sc).ineq = (problem A cb' o' sc).ineq := by funext x i; exact hi _ _ _ i i.2
  have eg : (problem A cb o sc).costGrad = (problem A cb' o' sc).costGrad := by
    funext x
    have := (p x).1
    rw [ec] at this
    exact gradient_unique this (p' x).1
  have ek : (problem A cb o sc).constr = (problem A cb' o' sc).constr := by
    funext x i
    rw [((p x).2.2 i).1, ((p' x).2.2 i).1, hk _ i i.2]
  have ej : (problem A cb o sc).jac = (problem A cb' o' sc).jac := by
    funext x i
    have := ((p x).2.2 i).2
    simp only [hk _ i i.2] at this
    exact gradient_unique this ((p' x).2.2 i).2
  have elg : (problem A cb o sc).lagGrad = (problem A cb' o' sc).lagGrad := by
    funext x lam
    have := (p x).2.1 lam
    simp only [hl] at this
    exact gradient_unique this ((p' x).2.1 lam)
  have elh : (problem A cb o sc).lagHess = (problem A cb' o' sc).lagHess := by
    funext x lam
    obtain ⟨-, -, -, -, -, -, -, q1⟩ := problem_hessian (sc := sc) hS hN hsk hU hVX h x lam
    obtain ⟨-, -, -, -, -, -, -, q2⟩ := problem_hessian (sc := sc) hS hN hsk hU hVX h' x lam
    simp only [hl] at q1
    have em : hesOf (cb.mayerAD2 (node d (ext x) 0) (o.time 0) (zero2 d.M)) = hesOf (cb'.mayerAD2 (node d (ext x) 0) (o'.time 0) (zero2 d.M)) := by
      have := hessian_unique (h.mayer2 (node d (ext x) 0)).ad2.2.2 (h'.mayer2 (node d (ext x) 0)).ad2.2.2
      funext r c
      unfold hesOf derAt
      by_cases h1 : c < d.M
      · rw [dif_pos h1, dif_pos h1]
        by_cases h2 : r < d.M
        · rw [dif_pos h2, dif_pos h2]
          exact congrFun (congrFun this ⟨r, h2⟩) ⟨c, h1⟩
        · rw [dif_neg h2, dif_neg h2]
      · rw [dif_neg h1, dif_neg h1]
    rw [em] at q1
    have := hessian_unique q1 q2
    funext r c
    exact sub_left_injective (congrFun (congrFun this r) c)
  revert ec ee ei eg ek ej elg elh
  generalize problem A cb o sc = P
  generalize problem A cb' o' sc = P'
  cases P; cases P'
  rintro rfl rfl rfl rfl rfl rfl rfl rfl
  rfl

variable {prec : Sqp.Precond ℝ d.VAR (d.NEQ + d.NINEQ)} {qps : Sqp.QPSolver ℝ d.VAR (d.NEQ + d.NINEQ)}

/-- The clock `t' = c t + e`: horizons given in it have the node times of the original one, read from it. -/
theorem time_affine (hA : GoodNodes d.N A) (hS : 1 ≤ d.S) (o o' : Obj d ℝ) (t0 tf c e : ℝ) {k : ℕ} (hk : k < d.NN) :
    (setTimeLimits d A o' (c * t0 + e) (c * tf + e)).time k = c * (setTimeLimits d A o t0 tf).time k + e := by
  obtain ⟨s, j, hs, hj, -, rfl⟩ := node_split d hS (one_le_N hA) hk
  rw [time_grid d A hA o t0 tf hs hj, time_grid d A hA o' _ _ hs hj]
  have : (d.S : ℝ) ≠ 0 := by exact_mod_cast (by omega : d.S ≠ 0)
  field_simp
  ring

/-- The same problem, written with the clock `t' = c t + e`: rates are per unit of `t'`. -/
structure Reclocked (c e : ℝ) (F F' : ℝ → ℕ → (Fin d.M → ℝ) → ℝ) (G G' : ℝ → ℕ → (Fin d.M → ℝ) → ℝ) (R R' : ℝ → (Fin d.M → ℝ) → ℝ) : Prop where
  dyn : ∀ t, ∀ i < d.NX, ∀ z, c * F' (c * t + e) i z = F t i z
  ineq : ∀ t, ∀ i < d.NG, ∀ z, G' (c * t + e) i z = G t i z
  lag : ∀ t z, c * R' (c * t + e) z = R t z

/-- **C237.** A controller whose problem and time limits are written with another clock: `solve` does the same, whatever the solver, and the wrapper afterwards returns the same states and
controls at the nodes. -/
theorem solve_reclocked [NeZero d.VAR] (hA : GoodNodes d.N A) (hS : 1 ≤ d.S) (hN : 1 ≤ d.N) (hsk : SkewEnds d A) (hU : d.NU ≤ d.NX) (hVX : d.NX ≤ d.VARU + d.NP ∨ d.NU = 0) (w : Wrap d ℝ)
    {t0 tf c e : ℝ} {F F' G G' : ℝ → ℕ → (Fin d.M → ℝ) → ℝ} {R R' : ℝ → (Fin d.M → ℝ) → ℝ}
    (h : Exact cb (setLimits A w t0 tf).ocp.time (fun k => F ((setLimits A w t0 tf).ocp.time k)) (fun k => G ((setLimits A w t0 tf).ocp.time k))
      (fun k => R ((setLimits A w t0 tf).ocp.time k)) m)
    (h' : Exact cb' (setLimits A w (c * t0 + e) (c * tf + e)).ocp.time (fun k => F' ((setLimits A w (c * t0 + e) (c * tf + e)).ocp.time k))
      (fun k => G' ((setLimits A w (c * t0 + e) (c * tf + e)).ocp.time k)) (fun k => R' ((setLimits A w (c * t0 + e) (c * tf + e)).ocp.time k)) m)
    (hr : Reclocked (d := d) c e F F' G G' R R') (env : Sqp.Problem ℝ d.VAR d.NEQ d.NINEQ → Sqp.Bounds ℝ d.VAR d.NINEQ → Sqp.Env ℝ d.VAR d.NEQ d.NINEQ prec qps)
    (s : Sqp.State ℝ d.VAR d.NEQ d.NINEQ prec qps) :
    Sqp.solve (env (problem A cb' (setLimits A w (c * t0 + e) (c * tf + e)).ocp sc) (bounds (setLimits A w (c * t0 + e) (c * tf + e))))
      (start (setLimits A w (c * t0 + e) (c * tf + e)) s) =
    Sqp.solve (env (problem A cb (setLimits A w t0 tf).ocp sc) (bounds (setLimits A w t0 tf))) (start (setLimits A w t0 tf) s) ∧
    ∀ r : Sqp.State ℝ d.VAR d.NEQ d.NINEQ prec qps, ∀ k i,
      solutionXAt (finish (setLimits A w (c * t0 + e) (c * tf + e)) r) k i = solutionXAt (finish (setLimits A w t0 tf) r) k i ∧
      solutionUAt (finish (setLimits A w (c * t0 + e) (c * tf + e)) r) k i = solutionUAt (finish (setLimits A w t0 tf) r) k i := by
  have ht : ∀ k < d.NN, (setLimits A w (c * t0 + e) (c * tf + e)).ocp.time k = c * (setLimits A w t0 tf).ocp.time k + e := fun k hk =>
    time_affine hA hS w.ocp w.ocp t0 tf c e hk
  have hp := problem_scaled (sc := sc) hS hN hsk hU hVX h' h ⟨fun k hk i hi z => ?_, fun k hk i hi z => ?_, fun k hk z => ?_⟩
  · refine ⟨?_, fun r k i => ⟨rfl, rfl⟩⟩
    rw [hp]
    rfl
  · change (c * tf + e - (c * t0 + e)) * F' _ i z = (tf - t0) * F _ i z
    rw [ht k hk, ← hr.dyn _ i hi z]
    ring
  · rw [ht k hk, hr.ineq _ i hi z]
  · change (c * tf + e - (c * t0 + e)) * R' _ z = (tf - t0) * R _ z
    rw [ht k hk, ← hr.lag _ z]
    ring

/-- **C237.** A problem that does not depend on time: moving the horizon changes nothing. -/
theorem solve_shifted [NeZero d.VAR] (hA : GoodNodes d.N A) (hS : 1 ≤ d.S) (hN : 1 ≤ d.N) (hsk : SkewEnds d A) (hU : d.NU ≤ d.NX) (hVX : d.NX ≤ d.VARU + d.NP ∨ d.NU = 0) (w : Wrap d ℝ)
    {F G : ℕ → (Fin d.M → ℝ) → ℝ} {R : (Fin d.M → ℝ) → ℝ} (h : ∀ time, Exact cb time (fun _ => F) (fun _ => G) (fun _ => R) m)
    (env : Sqp.Problem ℝ d.VAR d.NEQ d.NINEQ → Sqp.Bounds ℝ d.VAR d.NINEQ → Sqp.Env ℝ d.VAR d.NEQ d.NINEQ prec qps) (s : Sqp.State ℝ d.VAR d.NEQ d.NINEQ prec qps) (t0 tf e : ℝ) :
    Sqp.solve (env (problem A cb (setLimits A w (t0 + e) (tf + e)).ocp sc) (bounds (setLimits A w (t0 + e) (tf + e)))) (start (setLimits A w (t0 + e) (tf + e)) s) =
    Sqp.solve (env (problem A cb (setLimits A w t0 tf).ocp sc) (bounds (setLimits A w t0 tf))) (start (setLimits A w t0 tf) s) := by
  have := (solve_reclocked (cb := cb) (cb' := cb) (sc := sc) (c := 1) (e := e) (t0 := t0) (tf := tf) (F := fun _ => F) (F' := fun _ => F) (G := fun _ => G) (G' := fun _ => G)
    (R := fun _ => R) (R' := fun _ => R) hA hS hN hsk hU hVX w (h _) (h _) ⟨fun _ _ _ _ => one_mul _, fun _ _ _ _ => rfl, fun _ _ => one_mul _⟩ env s).1
  simpa only [one_mul] using this

/-! ### Non-vacuity -/

/-- The problem of C165 in milliseconds: `x' = u / 1000` with the running cost `(x² + u²) / 1000`. -/
noncomputable def lqMilli : Src lqDims where
  dyn _ _ := .assign (.bin .mul (.const (1 / 1000)) (.var 1))
  ineq _ _ := .skip
  lag _ := .assign (.bin .mul (.const (1 / 1000)) (.bin .add (.un .abs2 (.var 0)) (.un .abs2 (.var 1))))
  mayer _ := .skip

theorem lqMilli_exact (time : ℕ → ℝ) : Exact lqMilli.cbs time (fun _ _ z => 1 / 1000 * z 1) (fun _ _ _ => 0) (fun _ z => 1 / 1000 * (z 0 * z 0 + z 1 * z 1)) (fun _ => 0) where
  dyn k _ z := src_dyn lqMilli (time k) z (fun _ => .bin .mul (.const (1 / 1000)) (.var 1)) (fun _ _ => rfl) (fun _ _ => ⟨trivial, trivial, trivial⟩)
  ineq k _ z := ⟨fun _ _ i hi => absurd hi (by decide +revert), fun i hi => absurd hi (by decide +revert)⟩
  lag k _ z := src_lag lqMilli (time k) z (.bin .mul (.const (1 / 1000)) (.bin .add (.un .abs2 (.var 0)) (.un .abs2 (.var 1)))) rfl
    ⟨trivial, ⟨⟨trivial, trivial⟩, ⟨trivial, trivial⟩, trivial⟩, trivial⟩
  mayer z := src_mayer_default lqMilli _ z rfl
  dyn2 k _ z := src_dyn2 lqMilli (time k) z (fun _ => .bin .mul (.const (1 / 1000)) (.var 1)) (fun _ _ => rfl) (fun _ _ => ⟨trivial, trivial, trivial⟩) (fun _ _ => ⟨trivial, trivial⟩)
  ineq2 k _ z := ⟨fun i hi => absurd hi (by decide +revert)⟩
  lag2 k _ z := src_lag2 lqMilli (time k) z (.bin .mul (.const (1 / 1000)) (.bin .add (.un .abs2 (.var 0)) (.un .abs2 (.var 1)))) rfl
    ⟨trivial, ⟨⟨trivial, trivial⟩, ⟨trivial, trivial⟩, trivial⟩, trivial⟩ ⟨trivial, trivial, trivial⟩
  mayer2 z := ⟨rfl, isGradient_const 0 z, isHessian_affine (u := fun _ => 0) (fun z => isGradient_const 0 z) z⟩

/-- Two seconds from zero, or two thousand milliseconds from `5000`: the same solve. -/
example {prec : Sqp.Precond ℝ lqDims.VAR (lqDims.NEQ + lqDims.NINEQ)} {qps : Sqp.QPSolver ℝ lqDims.VAR (lqDims.NEQ + lqDims.NINEQ)} (sc : Scratch lqDims)
    (s : Sqp.State ℝ lqDims.VAR lqDims.NEQ lqDims.NINEQ prec qps) :
    Sqp.solve (Sqp.defaultEnv (1 / 2 ^ 52) Sqp.Settings.default (problem (chebApprox 1) lqMilli.cbs (setLimits (chebApprox 1) lqWrap 5000 7000).ocp sc) (bounds lqWrap)) (start lqWrap s) =
    Sqp.solve (Sqp.defaultEnv (1 / 2 ^ 52) Sqp.Settings.default (problem (chebApprox 1) lqSrc.cbs (setLimits (chebApprox 1) lqWrap 0 2).ocp sc) (bounds lqWrap)) (start lqWrap s) := by
  have := (solve_reclocked (d := lqDims) (cb := lqSrc.cbs) (cb' := lqMilli.cbs) (sc := sc) (A := chebApprox 1) (t0 := 0) (tf := 2) (c := 1000) (e := 5000)
    (F := fun _ _ z => z 1) (F' := fun _ _ z => 1 / 1000 * z 1) (G := fun _ _ _ => 0) (G' := fun _ _ _ => 0) (R := fun _ z => z 0 * z 0 + z 1 * z 1)
    (R' := fun _ z => 1 / 1000 * (z 0 * z 0 + z 1 * z 1)) (cheb_good (by decide)) (by decide) (by decide) (cheb_skew lqDims (by decide)) (by decide) (Or.inl (by decide)) lqWrap
    (lq_exact _) (lqMilli_exact _) ⟨fun _ _ _ z => by ring, fun _ _ _ _ => rfl, fun _ z => by ring⟩
    (fun P b => Sqp.defaultEnv (1 / 2 ^ 52) Sqp.Settings.default P b) s).1
  rw [show (1000 : ℝ) * 0 + 5000 = 5000 by norm_num, show (1000 : ℝ) * 2 + 5000 = 7000 by norm_num] at this
  exact this

/-- The problem is not the same for every horizon: with four seconds instead of two the constraint of the first node is another one. -/
example (sc : Scratch lqDims) : problem (chebApprox 1) lqSrc.cbs (setLimits (chebApprox 1) lqWrap 0 4).ocp sc ≠ problem (chebApprox 1) lqSrc.cbs (setLimits (chebApprox 1) lqWrap 0 2).ocp sc := by
  intro h
  have h1 := congrFun (congrFun (congrArg Sqp.Problem.eq h) fun i => if i = 2 then 1 else 0) ⟨0, by decide⟩
  have e := fun t => equalities_at lqDims (chebApprox 1) lqSrc.cbs (setLimits (chebApprox 1) lqWrap 0 t).ocp sc.junk (ext fun i : Fin lqDims.VAR => if i = 2 then 1 else 0) sc.c0
    (fun k i => node lqDims (ext fun i : Fin lqDims.VAR => if i = 2 then 1 else 0) k 1) (fun k hk old i hi => ((lq_exact (setLimits (chebApprox 1) lqWrap 0 t).ocp.time).dyn k hk 0).plain _ old i hi)
    (k := 0) (i := 0) (by decide) (by decide)
  have h2 : equalities lqDims (chebApprox 1) lqSrc.cbs (setLimits (chebApprox 1) lqWrap 0 4).ocp sc.junk (ext fun i : Fin lqDims.VAR => if i = 2 then 1 else 0) sc.c0 0 =
    equalities lqDims (chebApprox 1) lqSrc.cbs (setLimits (chebApprox 1) lqWrap 0 2).ocp sc.junk (ext fun i : Fin lqDims.VAR => if i = 2 then 1 else 0) sc.c0 0 := h1
  have e4 := e 4
  have e2 := e 2
  rw [show 0 * lqDims.NX + 0 = 0 from rfl] at e4 e2
  rw [e4, e2] at h2
  have hn : node lqDims (ext fun i : Fin lqDims.VAR => if i = 2 then (1 : ℝ) else 0) 0 1 = 1 := by
    rw [node_eq]
    rfl
  rw [hn] at h2
  have t4 : tScale lqDims (setLimits (chebApprox 1) lqWrap 0 4).ocp = 2 := by
    show (4 - 0 : ℝ) / ((2 * 1 : ℕ) : ℝ) = 2
    norm_num
  have t2 : tScale lqDims (setLimits (chebApprox 1) lqWrap 0 2).ocp = 1 := by
    show (2 - 0 : ℝ) / ((2 * 1 : ℕ) : ℝ) = 1
    norm_num
  rw [t4, t2] at h2
  linarith

end PolyMPC.MpcSqp
