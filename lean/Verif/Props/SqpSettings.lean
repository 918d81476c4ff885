import Verif.Props.Sqp

/-!
# C236: settings out of range are not rejected

`sqp_settings_t` documents ranges for its members and has a function `validate` that checks them, and `sqp_status_t` has a value `INVALID_SETTINGS`. The solver never calls the
function and never reports that status. What it does instead with settings out of range is proved here; `rho` has no effect at all.
-/

set_option linter.unusedSectionVars false

namespace PolyMPC.Sqp
open Spec QuasiNewton

universe u
variable {K : Type u} [Field K] [LinearOrder K] [IsStrictOrderedRing K] {n me mi : ℕ} {prec : Precond K n (me + mi)} {qps : QPSolver K n (me + mi)}

/-- The documented ranges, sqp_base.hpp:26-32: the first five from the comments, the last two from what the names say. -/
structure InRange (s : Settings K) : Prop where
  tau : s.tau ∈ Set.Ioo 0 1
  eta : s.eta ∈ Set.Ioo 0 1
  rho : s.rho ∈ Set.Ioo 0 1
  prim : 0 < s.epsPrim
  dual : 0 < s.epsDual
  iter : 1 ≤ s.maxIter
  line : 1 ≤ s.lineSearchMaxIter

/-- **C236.** `validate` accepts exactly the settings in the documented ranges, the default settings among them. -/
theorem validate_iff (s : Settings K) : s.validate = true ↔ InRange s := by
  simp only [Settings.validate, Bool.and_eq_true, decide_eq_true_eq]
  constructor
  · rintro ⟨⟨⟨⟨⟨⟨⟨⟨⟨a, b⟩, c⟩, d⟩, e⟩, f⟩, g⟩, h⟩, i⟩, j⟩
    exact ⟨⟨a, b⟩, ⟨c, d⟩, ⟨e, f⟩, g, h, i, j⟩
  · rintro ⟨⟨a, b⟩, ⟨c, d⟩, ⟨e, f⟩, g, h, i, j⟩
    exact ⟨⟨⟨⟨⟨⟨⟨⟨⟨a, b⟩, c⟩, d⟩, e⟩, f⟩, g⟩, h⟩, i⟩, j⟩

theorem default_in_range : InRange (Settings.default : Settings K) := by
  constructor <;> norm_num [Settings.default]

/-- **C236.** No solve reports `INVALID_SETTINGS`, whatever the settings are. -/
theorem never_invalid [NeZero n] {env : Env K n me mi prec qps} {st r : State K n me mi prec qps} (h : solve env st = some r) : r.status ≠ .INVALID_SETTINGS := by
  intro hc
  have := ((solve_control_flow h).2.2.2.1 (by rw [hc]; exact fun h => Status.noConfusion h)).1
  rw [hc] at this
  cases this

/-- **C236.** `rho`, documented as a parameter of the line search, has no effect. -/
theorem rho_ignored [NeZero n] (eps : K) (cfg : Settings K) (rho : K) (prob : Problem K n me mi) (bd : Bounds K n mi) (st : State K n me mi prec qps) :
    solve (defaultEnv eps { cfg with rho := rho } prob bd) st = solve (defaultEnv eps cfg prob bd) st := by
  have hl : ∀ fuel (s : State K n me mi prec qps), loop (defaultEnv eps { cfg with rho := rho } prob bd) fuel s = loop (defaultEnv eps cfg prob bd) fuel s := by
    intro fuel
    induction fuel with
    | zero => exact fun s => rfl
    | succ fuel ih =>
      intro s
      rw [loop_succ, loop_succ]
      simp only [ih]
      rfl
  unfold solve
  simp only [hl]
  rfl

/-- **C236.** Without an iteration allowed one is made, as if one were allowed. -/
theorem one_iteration [NeZero n] {env : Env K n me mi prec qps} (hm : env.cfg.maxIter ≤ 1) {st r : State K n me mi prec qps} (h : solve env st = some r) : r.iter = 1 := by
  obtain ⟨h1, h2, -⟩ := solve_control_flow h
  rw [max_eq_left hm] at h2
  omega

/-- **C236.** With a negative `eps_prim` no solve succeeds: all iterations are made, and the status is the one of a solve that did not converge. -/
theorem negative_tolerance [NeZero n] {env : Env K n me mi prec qps} (he : env.cfg.epsPrim < 0) {st r : State K n me mi prec qps} (h : solve env st = some r) :
    r.status = .MAX_ITER_EXCEEDED ∧ r.iter = max 1 env.cfg.maxIter := by
  obtain ⟨-, -, h3, h4, -⟩ := solve_control_flow h
  refine h4 fun hs => ?_
  have := ((maxViolation_le_iff _ _ _).mp (h3.mp hs).2.2).1
  exact absurd he (not_lt.2 this)

/-- **C236.** With `line_search_max_iter` at most one there is no line search: every step is a full step. -/
theorem no_search (eps : K) {cfg : Settings K} (hm : cfg.lineSearchMaxIter ≤ 1) (prob : Problem K n me mi) (bd : Bounds K n mi) (h : Fin n → K) (lamK : Dual K n me mi) (x p : Fin n → K)
    (logged : K) : lineSearch eps cfg prob bd h lamK x p logged = (1, logged) := by
  unfold lineSearch
  dsimp only
  rw [show (cfg.lineSearchMaxIter - 1).toNat = 0 by omega]
  rfl

/-- **C236.** With `tau` zero a step whose full length is refused is not made at all, … -/
theorem tau_zero_step (eps : K) {cfg : Settings K} (ht : cfg.tau = 0) (prob : Problem K n me mi) (bd : Bounds K n mi) (h : Fin n → K) (lamK : Dual K n me mi) (x p : Fin n → K)
    (logged : K) : (lineSearch eps cfg prob bd h lamK x p logged).1 = 1 ∨ (lineSearch eps cfg prob bd h lamK x p logged).1 = 0 := by
  obtain ⟨k, -, e, -⟩ := lineSearch_spec eps cfg prob bd h lamK x p logged
  rw [e, ht]
  rcases Nat.eq_zero_or_pos k with rfl | hk
  · exact Or.inl (pow_zero _)
  · exact Or.inr (zero_pow (by omega))

/-! ### … and that counts as convergence -/

/-- `x + x²/4 + x⁴` on `[-10, 10]`; its least value is below `-1/4`. -/
def bowl : Problem ℚ 1 0 0 where
  cost x := x 0 + x 0 ^ 2 / 4 + x 0 ^ 4
  eq _ := Fin.elim0
  ineq _ := Fin.elim0
  costGrad x := fun _ => 1 + x 0 / 2 + 4 * x 0 ^ 3
  constr _ := Fin.elim0
  jac _ := Matrix.of fun i => Fin.elim0 i
  lagGrad x l := fun _ => 1 + x 0 / 2 + 4 * x 0 ^ 3 + l (Sum.inr 0)
  lagHess x _ := Matrix.of fun _ _ => 1 / 2 + 12 * x 0 ^ 2

/-- A solver for one variable that is not at its limits. -/
def stepQPS : QPSolver ℚ 1 (0 + 0) where
  Mem := PUnit
  solve _ qp := (PUnit.unit, fun _ => -qp.h 0 / qp.H 0 0, fun _ => 0, 1)

def bowlState : State ℚ 1 0 0 (identityPrecond ℚ 1 (0 + 0)) stepQPS where
  x := fun _ => 0
  lam := fun _ => 0
  lamK := fun _ => 0
  qp := ⟨0, 0, 0, 0, 0, 0, 0⟩
  cost := 0
  iter := 0
  qpIter := 0
  status := .INVALID_SETTINGS
  lagGradient := 0
  stepPrev := 0
  primalNorm := 0
  dualNorm := 0
  maxViolation := 0
  precMem := PUnit.unit
  qpMem := PUnit.unit
  callbacks := []

/-- **C236.** Default settings but for `tau = 0`: `solve` reports `SOLVED` after one iteration at the point it started from, where the gradient is one and no limit is active. -/
theorem tau_zero_solved : ∃ r, solve (defaultEnv (1 / 10 ^ 15 : ℚ) { (Settings.default : Settings ℚ) with tau := (0 : ℚ) } bowl demoBounds) bowlState = some r ∧
    r.status = .SOLVED ∧ r.iter = 1 ∧ r.x 0 = 0 ∧ bowl.costGrad r.x 0 = 1 ∧ demoBounds.lbx 0 < r.x 0 ∧ r.x 0 < demoBounds.ubx 0 ∧ bowl.cost (fun _ => -1 / 2) < bowl.cost r.x := by
  have key : ((solve (defaultEnv (1 / 10 ^ 15 : ℚ) { (Settings.default : Settings ℚ) with tau := (0 : ℚ) } bowl demoBounds) bowlState).map fun r =>
    decide (r.status = .SOLVED ∧ r.iter = 1 ∧ r.x 0 = 0 ∧ bowl.costGrad r.x 0 = 1 ∧ demoBounds.lbx 0 < r.x 0 ∧ r.x 0 < demoBounds.ubx 0 ∧
      bowl.cost (fun _ => -1 / 2) < bowl.cost r.x)) = some true := by decide +kernel
  rw [Option.map_eq_some_iff] at key
  obtain ⟨r, h1, h2⟩ := key
  exact ⟨r, h1, of_decide_eq_true h2⟩

/-- Non-vacuity: with the default settings the same solve does better, and with a negative tolerance it does not succeed. -/
example : ((solve (defaultEnv (1 / 10 ^ 15 : ℚ) { (Settings.default : Settings ℚ) with maxIter := 4 } bowl demoBounds) bowlState).map fun r => decide (bowl.cost r.x < -1 / 4)) = some true ∧
    ((solve (defaultEnv (1 / 10 ^ 15 : ℚ) { (Settings.default : Settings ℚ) with maxIter := -3, epsPrim := (-1 : ℚ) } bowl demoBounds) bowlState).map fun r =>
      decide (r.status = .MAX_ITER_EXCEEDED ∧ r.iter = 1)) = some true ∧
    ¬ InRange { (Settings.default : Settings ℚ) with tau := 0 } :=
  ⟨by decide +kernel, by decide +kernel, fun h => lt_irrefl _ h.tau.1⟩

end PolyMPC.Sqp
