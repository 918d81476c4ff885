import Verif.Props.NmpcObj

/-! # The tracking controller `nmpc`: scaling changed after construction, path error -/

namespace PolyMPC.Nmpc
open Ocp CasCheb GenOcp Spec Polynomial

set_option linter.unusedSectionVars false

/-! ### C143: the scaling setters -/

/-- **C143 (negative).** `setStateScaling` and `setControlScaling` do not change the program, only the coordinates in which its solution is reported. If the
solution `v` of an unscaled controller satisfies the constraints, the reported trajectory `S⁻¹ x` and controls `V⁻¹ u` satisfy the differential equation of
another system, `y' = S⁻¹ f(S y, V v)`. -/
theorem late_scaling {d : Dims} {sys : Sys ℝ} {o : Opts ℝ} {ref : ℕ → ℝ} {tf : ℝ} {solver : Args ℝ → Res ℝ} (hS : 1 ≤ d.S) (hN : 1 ≤ d.N) (h : 0 < tf)
    (ho : o.scaling.getD false = false) {ob ob' : Obj ℝ} {x : ℕ → ℝ} {a : Args ℝ} (hix : ob.isx.n = d.NX) (hiu : ob.isu.n = d.NU) (invX : IsInv d.NX ob.sx.a ob.isx.a) (invU : IsInv d.NU ob.su.a ob.isu.a) (ha : solveArgs d ob x = some a)
    (hc : computeControl d solver ob x = some ob') {p : Nlp ℝ} (hp : nlp d (scheme d.N) sys o ref tf (solver a).x = some p) (hz : ∀ r < p.n, p.g r = 0) :
    ∃ Y C, ob'.traj = some Y ∧ ob'.ctrl = some C ∧ ∀ s < d.S, ∀ i < d.NX, ∃ Q : ℝ[X], Q.natDegree ≤ d.N ∧
      (∀ l ≤ d.N, Q.eval (segTime d.S d.N 0 tf s l) = Y (s * d.N + l) i) ∧
      ∀ j < d.N, Q.derivative.eval (segTime d.S d.N 0 tf s j)
        = lin d.NX ob.isx.a (sys.f (lin d.NX ob.sx.a (Y (s * d.N + j))) (lin d.NU ob.su.a (C (s * d.N + j)))) i := by
  obtain ⟨a', ha', -, -, -, -, -, -, -, ht, hct⟩ := compute_some hc
  have e : a' = a := Option.some.inj (ha'.symm.trans ha)
  subst e
  refine ⟨_, _, ht, hct, fun s hs i hi => ?_⟩
  have hq := (program_meaning hS hN h ho hp).2.2.1 hz s hs
  choose! Q hQ hv hd using hq
  have hY : ∀ k, (ob.isx.app d.NX fun i => (solver a').x (k * d.NX + i)) = lin d.NX ob.isx.a (xAt d (solver a').x k) := fun k => by
    rw [app_lin hix]
    exact lin_congr _ fun i hi => by unfold xAt part; rw [if_pos hi]
  have hC : ∀ k, (ob.isu.app d.NU fun i => (solver a').x (d.NN * d.NX + k * d.NU + i)) = lin d.NU ob.isu.a (uAt d (solver a').x k) := fun k => by
    rw [app_lin hiu]
    exact lin_congr _ fun i hi => by unfold uAt part; rw [if_pos hi]
  refine ⟨∑ q ∈ Finset.range d.NX, C (ob.isx.a i q) * Q q, ?_, fun l hl => ?_, fun j hj => ?_⟩
  · exact natDegree_sum_le_of_forall_le _ _ fun q hq => (natDegree_C_mul_le _ _).trans (hQ q (Finset.mem_range.1 hq))
  · show _ = ob.isx.app d.NX _ i
    rw [hY, eval_finsetSum, lin, if_pos hi]
    refine Finset.sum_congr rfl fun q hq => ?_
    rw [eval_mul, eval_C, hv q (Finset.mem_range.1 hq) l hl]
  · show _ = lin d.NX ob.isx.a (sys.f (lin d.NX ob.sx.a (ob.isx.app d.NX _)) (lin d.NU ob.su.a (ob.isu.app d.NU _))) i
    rw [hY, hC]
    have e1 : lin d.NX ob.sx.a (lin d.NX ob.isx.a (xAt d (solver a').x (s * d.N + j))) = xAt d (solver a').x (s * d.N + j) := by
      rw [lin_inv invX.2]; unfold xAt; rw [part_part]
    have e2 : lin d.NU ob.su.a (lin d.NU ob.isu.a (uAt d (solver a').x (s * d.N + j))) = uAt d (solver a').x (s * d.N + j) := by
      rw [lin_inv invU.2]; unfold uAt; rw [part_part]
    rw [e1, e2, derivative_sum, eval_finsetSum, lin, if_pos hi]
    refine Finset.sum_congr rfl fun q hq => ?_
    rw [derivative_C_mul, eval_mul, eval_C, hd q (Finset.mem_range.1 hq) j hj]

/-- The other system need not be the given one: for `x' = x²` and the scaling `2` it is `y' = 2 y²`. -/
example (y : ℕ → ℝ) : lin 1 (fun _ _ => (1 / 2 : ℝ)) ((fun (x : ℕ → ℝ) (i : ℕ) => x i ^ 2) (lin 1 (fun _ _ => 2) y)) 0 = 2 * y 0 ^ 2 := by
  simp [lin]; ring

/-! ### C144: the path error -/

section Field
variable {K : Type} [Field K] [DecidableEq K] {d : Dims} {solver : Args K → Res K}

theorem eye_app (n m : ℕ) (v : ℕ → K) : (eye n : Mat K).app m v = part m v 0 := by
  funext i
  unfold Mat.app part
  by_cases hi : i < m
  · rw [if_pos hi, if_pos hi, Nat.zero_add]
    show ite (n = m) _ _ = _
    by_cases hn : n = m
    · rw [if_pos hn]
      show ∑ j ∈ Finset.range m, (if i = j then (1 : K) else 0) * v j = v i
      rw [Finset.sum_eq_single i]
      · rw [if_pos rfl, one_mul]
      · intro j _ hj; rw [if_neg hj.symm, zero_mul]
      · intro h; exact absurd (Finset.mem_range.2 hi) h
    · rw [if_neg hn]
      show (if 0 = 0 then (1 : K) else 0) * v i = v i
      rw [if_pos rfl, one_mul]
  · rw [if_neg hi, if_neg hi]

/-- The residual of `getPathError` after a solve, for an unscaled controller. -/
theorem residual_off (hp : Pins d solver) {sys : Sys K} {o : Opts K} (ho : o.scaling.getD false = false) (ref : ℕ → K)
    {ob ob' : Obj K} {x : ℕ → K} (hsx : ob.sx = eye sys.ny) (hisx : ob.isx = eye sys.ny) (h : computeControl d solver ob x = some ob') :
    pathResidual d sys o ref ob' = some fun i => ref i - sys.out (part d.NX x 0) i := by
  obtain ⟨a, ha, -, -, -, h4, -, -, -, ht, -⟩ := compute_some h
  obtain ⟨e1, e2⟩ := args_box ha
  have hv : part d.NX (fun i => (solver a).x (d.S * d.N * d.NX + i)) 0 = part d.NX x 0 := by
    funext j
    unfold part
    by_cases hj : j < d.NX
    · rw [if_pos hj, if_pos hj]
      beta_reduce
      rw [Nat.zero_add]
      refine hp a _ _ ?_ ?_ ?_
      · have := last_idx (d := d); unfold Dims.VARX; omega
      · rw [e1, put_in _ _ _ _ hj, hsx, eye_app, part, if_pos hj, Nat.zero_add]
      · rw [e2, put_in _ _ _ _ hj, hsx, eye_app, part, if_pos hj, Nat.zero_add]
    · rw [if_neg hj, if_neg hj]
  unfold pathResidual
  rw [ht, h4, hsx, hisx]
  show some (residual d sys o ref _) = _
  beta_reduce
  rw [eye_app, eye_app, hv]
  unfold residual
  have h' : o.scale = false := ho
  rw [h']
  congr 1
  funext i
  congr 2
  have : part d.NX (part d.NX x 0) 0 = part d.NX x 0 := by
    funext j; unfold part; by_cases hj : j < d.NX
    · rw [if_pos hj, if_pos hj, if_pos (by omega)]; congr 1; omega
    · rw [if_neg hj, if_neg hj]
  show (if false = true then _ else _) = _
  rw [if_neg Bool.false_ne_true, this]
end Field

/-- The residual of `getPathError` after a solve, for a scaled controller. -/
theorem residual_on {K : Type} [Field K] [LinearOrder K] [IsStrictOrderedRing K] {d : Dims} {solver : Args K → Res K} (hp : Pins d solver) {sys : Sys K}
    {o : Opts K} {S T V W : Mat K} (sc : Scaled d o S T V W) (ref : ℕ → K) {ob ob' : Obj K} {x : ℕ → K} (hsx : ob.sx = S) (hisx : ob.isx = T)
    (h : computeControl d solver ob x = some ob') : pathResidual d sys o ref ob' = some fun i => ref i - sys.out (part d.NX x 0) i := by
  obtain ⟨Y, hY, hv⟩ := initial_state hp (by rw [hsx]; exact sc.nS) (by rw [hisx]; exact sc.nT) (by rw [hsx, hisx]; exact sc.invX) h
  obtain ⟨a, -, -, -, -, h4, -⟩ := compute_some h
  unfold pathResidual
  rw [hY, h4, hsx]
  show some (residual d sys o ref _) = _
  unfold residual
  rw [sc.scale, sc.SX sys, app_lin sc.nS, lin_congr S.a hv, lin_part]
  congr 1
  funext i
  show ref i - sys.out (T.app d.NX _) i = _
  rw [sc.backX]

/-- **C144 (negative).** `getPathError()` after `computeControl(x)` is the distance of the output at `x` from the reference: the error at the initial
state, which does not depend on the computed plan. It holds without scaling and with any invertible scaling, provided that the solver respects fixed
variables; before the first solve the result is zero. -/
theorem path_error_initial {d : Dims} {solver : Args ℝ → Res ℝ} (hp : Pins d solver) {sys : Sys ℝ} {o : Opts ℝ} (ref : ℕ → ℝ) {ob ob1 ob' : Obj ℝ}
    {ops : List (Op ℝ)} {x : ℕ → ℝ} (hc : construct d sys o = some ob) (hs : ∀ op ∈ ops, keepsScaling op) (hr : run d solver ob ops = some ob1)
    (hm : o.scaling.getD false = false ∨ ∃ S T V W, Scaled d o S T V W) :
    (computeControl d solver ob1 x = some ob' →
      getPathError d sys o ref ob' = Real.sqrt (∑ i ∈ Finset.range sys.ny, (ref i - sys.out (part d.NX x 0) i) ^ 2)) ∧
    ((∀ op ∈ ops, noSolve op) → getPathError d sys o ref ob1 = 0) := by
  obtain ⟨-, rfl⟩ := construct_some hc
  obtain ⟨b1, -, b3, -⟩ := run_box ops hs hr
  constructor
  · intro h
    have hres : pathResidual d sys o ref ob' = some fun i => ref i - sys.out (part d.NX x 0) i := by
      rcases hm with ho | ⟨S, T, V, W, sc⟩
      · exact residual_off hp ho ref (by rw [b1]; exact congrArg Prod.fst (off_SX ho))
          (by rw [b3]; exact congrArg Prod.snd (off_SX ho)) h
      · exact residual_on hp sc ref (by rw [b1]; exact congrArg Prod.fst (sc.SX sys)) (by rw [b3]; exact congrArg Prod.snd (sc.SX sys)) h
    unfold getPathError
    rw [hres]
  · intro hn
    obtain ⟨-, -, -, -, b5, -⟩ := run_quiet ops hn hr
    have : pathResidual d sys o ref ob1 = none := by unfold pathResidual; rw [b5]; rfl
    unfold getPathError
    rw [this]

/-! ### Concrete calls -/

/-- One state, one control, one segment of degree one: the variables are `x(tf), x(0), u(tf), u(0)`. -/
def exD : Dims := ⟨1, 1, 0, 0, 1, 1⟩
def exSys : Sys ℚ := ⟨1, fun x u i => x i + u i, fun x => x⟩

/-- A solver that respects fixed variables and adds `1` to the others. -/
def exSolver : Args ℚ → Res ℚ := fun a =>
  ⟨fun r => if a.lbx r = a.ubx r then (a.lbx r).getD ((a.x0.getD fun _ => 0) r + 1) else (a.x0.getD fun _ => 0) r + 1, fun _ => 7, fun _ => 8⟩

example : Pins exD exSolver := by
  intro a r v _ h1 h2
  show (if a.lbx r = a.ubx r then _ else _) = _
  rw [if_pos (h1.trans h2.symm), h1]; rfl

/-- The arguments of the solve for `x` after the calls `ops`. -/
def exArgs (ops : List (Op ℚ)) (x : ℚ) : Option (Args ℚ) := do
  let ob ← construct exD exSys {}
  let ob' ← run exD exSolver ob ops
  solveArgs exD ob' fun _ => x

/-- The guess of a solve and the multiplier guess, as lists. -/
def shown (a : Option (Args ℚ)) : Option (Option (List ℚ) × Option ℚ) := a.map fun a => (a.x0.map fun v => (List.range 4).map v, a.lamG0.map fun v => v 0)

/-- First solve; second solve; a solve after `disableWarmStart`, whose controls are those of the guess of the second solve (`1`), not of its solution (`2`). -/
example : shown (exArgs [] 5) = some (some [5, 5, 0, 0], none) ∧
    shown (exArgs [.computeControl fun _ => 5] 6) = some (some [6, 5, 1, 1], some 8) ∧
    shown (exArgs [.computeControl fun _ => 5, .computeControl fun _ => 6] 7) = some (some [7, 6, 2, 2], some 8) ∧
    shown (exArgs [.computeControl fun _ => 5, .computeControl fun _ => 6, .disableWarmStart] 7) = some (some [7, 7, 1, 1], some 8) ∧
    shown (exArgs [.enableWarmStart] 5) = some (none, none) ∧
    shown (exArgs [.enableWarmStart, .computeControl fun _ => 5, .disableWarmStart] 5) = none := by decide +kernel

/-- Bounds set after a solve hold at the end of the horizon, the initial time is fixed by the solve. -/
example : (exArgs [.computeControl fun _ => 5, .setLBX fun _ => some 1, .setUBU fun _ => some 3] 9).map
    (fun a => ((List.range 4).map a.lbx, (List.range 4).map a.ubx)) = some ([some 1, some 9, none, none], [none, some 9, some 3, some 3]) := by decide +kernel

/-- Three outputs of one state: the constructor throws; with a state scaling it does not. -/
example : construct exD ⟨3, fun x u i => x i + u i, fun x _ => x 0⟩ ({} : Opts ℚ) = none ∧
    (construct exD ⟨3, fun x u i => x i + u i, fun x _ => x 0⟩
      ({ scaling := some true, scaleX := some (⟨1, fun _ _ => 1⟩, ⟨1, fun _ _ => 1⟩) } : Opts ℚ)).isSome = true := ⟨rfl, by decide +kernel⟩

end PolyMPC.Nmpc
