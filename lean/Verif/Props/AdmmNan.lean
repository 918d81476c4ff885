import Mathlib.Algebra.Order.Field.Rat
import Mathlib.Tactic.NormNum
import Mathlib.Tactic.Linarith
import Verif.Model.AdmmNan
import Verif.Props.SqpNan

/-!
# Property C246: NaN in ADMM and boxADMM
-/

set_option linter.unusedSectionVars false

namespace PolyMPC.AdmmNan
open PolyMPC.FilterNan PolyMPC.SqpNan

variable {K T : Type*} [Field K] [LinearOrder K] [IsStrictOrderedRing K] {n : ℕ}
  {mc : (k : ℕ) → (Fin k → Option K) → Option K}

theorem mulN_none (a : Option K) : mulN a none = none := by cases a <;> rfl

theorem addN_none (a : Option K) : addN a none = none := by cases a <;> rfl

theorem sumN_none {l : List (Option K)} (h : none ∈ l) : sumN l = none := by
  induction l with
  | nil => cases h
  | cons a l ih =>
    show addN a (sumN l) = none
    rcases List.mem_cons.1 h with h | h
    · rw [← h]; rfl
    · rw [ih h, addN_none]

/-- C246. An entry of the iterate of ADMM that is NaN stays NaN, whatever the linear solver returns. -/
theorem nan_stays (alpha : K) (xt x : Fin n → Option K) (i : Fin n) (h : x i = none) : xUpdate alpha xt x i = none := by
  unfold xUpdate
  rw [h, mulN_none, addN_none]

/-- C246. One NaN entry of the iterate makes the dual residual NaN: the residual test does not lose it. -/
theorem resDual_nan (hm : MaxCoeff mc) (s : Solver K T n) (x : Fin n → Option K) (t : T) (h : ∃ j, x j = none) :
    resDual mc s x t = none := by
  obtain ⟨j, hj⟩ := h
  refine hm.nan n _ j.pos fun i => ?_
  rw [sumN_none (List.mem_ofFn.2 ⟨j, by rw [hj, mulN_none]⟩)]
  rfl

theorem terminated_nan (hm : MaxCoeff mc) (cfg : Cfg K) (s : Solver K T n) (x : Fin n → Option K) (t : T)
    (h : ∃ j, x j = none) : terminated mc cfg s x t = false := by
  unfold terminated
  rw [resDual_nan hm s x t h]
  exact Bool.and_false _

theorem estimate_nan (hm : MaxCoeff mc) (reg rho : K) (s : Solver K T n) (hs : s.sqrtN none = none)
    (x : Fin n → Option K) (t : T) (h : ∃ j, x j = none) : estimateRho mc reg s rho x t = none := by
  unfold estimateRho
  simp only [resDual_nan hm s x t h]
  generalize divN (s.resPrim x t) _ = u
  have : divN u (addN (divN none (addN (s.maxDual x t) (some reg))) (some reg)) = none := by cases u <;> rfl
  rw [this, hs, mulN_none]

/-- C246. An estimate that is NaN sets `rho` to its largest value, unless it is within the tolerance already. -/
theorem adapt_nan (cfg : Cfg K) (rho : K) :
    adaptRho cfg rho none = if rhoMax < rho / cfg.tolerance ∨ rhoMax > rho * cfg.tolerance then rhoMax else rho := by
  have : fmaxN (some (rhoMin : K)) (fminN none (some rhoMax)) = some rhoMax := by
    show some (max (rhoMin : K) rhoMax) = _
    rw [max_eq_right]
    unfold rhoMin rhoMax
    norm_num
  unfold adaptRho
  rw [this]

/-- C246. From a NaN in the iterate on ADMM runs to the end of its iterations and reports MAX_ITER_EXCEEDED with the NaN
in the result. -/
theorem nan_loop (hm : MaxCoeff mc) (reg : K) (cfg : Cfg K) (s : Solver K T n) (fuel it : ℕ) (rho : K)
    (x : Fin n → Option K) (t : T) (j : Fin n) (h : x j = none) :
    (loop xUpdate mc reg cfg s fuel it rho x t).solved = false ∧ (loop xUpdate mc reg cfg s fuel it rho x t).iter = it + fuel ∧
      (loop xUpdate mc reg cfg s fuel it rho x t).x j = none := by
  induction fuel generalizing it rho x t with
  | zero => exact ⟨rfl, rfl, h⟩
  | succ fuel ih =>
    have h' := nan_stays cfg.alpha (s.xTilde rho x t) x j h
    unfold loop
    simp only
    rw [if_neg (by rw [terminated_nan hm cfg s _ _ ⟨j, h'⟩]; simp)]
    obtain ⟨a, b, c⟩ := ih (it + 1) (if cfg.adaptiveRho = true ∧ it % cfg.interval = 0 then
      adaptRho cfg rho (estimateRho mc reg s rho (xUpdate cfg.alpha (s.xTilde rho x t) x) (s.next rho x t)) else rho) _
      (s.next rho x t) h'
    exact ⟨a, by rw [b]; omega, c⟩

/-- C246. A call of ADMM with a NaN in the guess of `x`: all iterations are done, MAX_ITER_EXCEEDED is reported and the NaN is in the
solution. -/
theorem nan_guess (hm : MaxCoeff mc) (reg : K) (cfg : Cfg K) (s : Solver K T n) (rho : K) (x : Fin n → Option K) (t : T)
    (j : Fin n) (h : x j = none) :
    (solve mc reg cfg s rho x t).solved = false ∧ (solve mc reg cfg s rho x t).iter = cfg.maxIter + 1 ∧
      (solve mc reg cfg s rho x t).x j = none := by
  obtain ⟨a, b, c⟩ := nan_loop hm reg cfg s cfg.maxIter 1 rho x t j h
  exact ⟨a, b.trans (add_comm _ _), c⟩

/-- SOLVED is reported only with numbers in the solution, for every update of `x`. -/
theorem loop_solved_numbers (upd : K → (Fin n → Option K) → (Fin n → Option K) → Fin n → Option K) (hm : MaxCoeff mc) (reg : K)
    (cfg : Cfg K) (s : Solver K T n) (fuel it : ℕ) (rho : K) (x : Fin n → Option K) (t : T)
    (h : (loop upd mc reg cfg s fuel it rho x t).solved = true) (j : Fin n) :
    ∃ r, (loop upd mc reg cfg s fuel it rho x t).x j = some r := by
  induction fuel generalizing it rho x t with
  | zero => cases h
  | succ fuel ih =>
    unfold loop at h ⊢
    simp only at h ⊢
    by_cases h1 : cfg.checkTermination ≠ 0 ∧ it % cfg.checkTermination = 0 ∧
        terminated mc cfg s (upd cfg.alpha (s.xTilde rho x t) x) (s.next rho x t) = true
    · rw [if_pos h1]
      show ∃ r, upd cfg.alpha (s.xTilde rho x t) x j = some r
      cases hx : upd cfg.alpha (s.xTilde rho x t) x j with
      | some r => exact ⟨r, rfl⟩
      | none =>
        rw [terminated_nan hm cfg s _ _ ⟨j, hx⟩] at h1
        simp at h1
    · rw [if_neg h1] at h ⊢
      exact ih _ _ _ _ h

/-- C246. If ADMM or boxADMM reports SOLVED, all entries of the solution are numbers. -/
theorem solved_numbers (hm : MaxCoeff mc) (reg : K) (cfg : Cfg K) (s : Solver K T n) (rho : K) (x : Fin n → Option K)
    (t : T) (j : Fin n) :
    ((solve mc reg cfg s rho x t).solved = true → ∃ r, (solve mc reg cfg s rho x t).x j = some r) ∧
      ((solveBox mc reg cfg s rho x t).solved = true → ∃ r, (solveBox mc reg cfg s rho x t).x j = some r) :=
  ⟨fun h => loop_solved_numbers _ hm reg cfg s _ _ rho x t h j, fun h => loop_solved_numbers _ hm reg cfg s _ _ rho x t h j⟩

/-- C246. With adaptation on, `rho` is driven to its largest value by the NaN: once it is there it stays, and the first
iteration that is a multiple of the interval takes it there. -/
theorem nan_rho (hm : MaxCoeff mc) (reg : K) (cfg : Cfg K) (s : Solver K T n) (hs : s.sqrtN none = none)
    (ha : cfg.adaptiveRho = true) (fuel it : ℕ) (rho : K) (x : Fin n → Option K) (t : T)
    (j : Fin n) (h : x j = none)
    (hr : rho = rhoMax ∨ rho * cfg.tolerance < rhoMax ∧ ∃ k, it ≤ k ∧ k < it + fuel ∧ k % cfg.interval = 0) :
    (loop xUpdate mc reg cfg s fuel it rho x t).rho = rhoMax := by
  induction fuel generalizing it rho x t with
  | zero =>
    rcases hr with hr | ⟨_, k, h1, h2, _⟩
    · exact hr
    · omega
  | succ fuel ih =>
    have h' := nan_stays cfg.alpha (s.xTilde rho x t) x j h
    unfold loop
    simp only
    rw [if_neg (by rw [terminated_nan hm cfg s _ _ ⟨j, h'⟩]; simp), estimate_nan hm reg rho s hs _ _ ⟨j, h'⟩, adapt_nan]
    refine ih _ _ _ _ h' ?_
    rcases hr with hr | ⟨h0, k, h1, h2, h3⟩
    · left
      split_ifs <;> first | rfl | exact hr
    · by_cases hk : it % cfg.interval = 0
      · left
        rw [if_pos ⟨ha, hk⟩, if_pos (Or.inr h0)]
      · right
        rw [if_neg (fun c => hk c.2)]
        refine ⟨h0, k, ?_, by omega, h3⟩
        rcases Nat.lt_or_ge it k with h4 | h4
        · omega
        · have : k = it := by omega
          rw [this] at h3
          exact absurd h3 hk

/-! ## Non-vacuity -/

/-- One variable, `x_tilde = 1`, residuals zero. -/
def exSolver : Solver ℚ Unit 1 where
  H _ _ := some 1
  xTilde _ _ _ _ := some 1
  next _ _ t := t
  rest _ _ _ := some (-1)
  resPrim _ _ := some 0
  maxPrim _ _ := some 1
  maxDual _ _ := some 1
  sqrtN r := r

/-- Default settings of the solvers but 50 iterations. -/
def exCfg : Cfg ℚ := ⟨1, 1 / 1000, 1 / 1000, true, 5, 25, 25, 50⟩

/-- From a number the solver stops at the first check. -/
example : (solve mcProp (1 / 10 ^ 10) exCfg exSolver (1 / 10) (fun _ => some 0) ()).solved = true := by decide +kernel

example : (solveBox mcProp (1 / 10 ^ 10) exCfg exSolver (1 / 10) (fun _ => some 0) ()).solved = true := by decide +kernel

/-- From NaN it does not, and `rho` ends at `10^6`. -/
example : (solve mcProp (1 / 10 ^ 10) exCfg exSolver (1 / 10) (fun _ => none) ()).solved = false ∧
    (solve mcProp (1 / 10 ^ 10) exCfg exSolver (1 / 10) (fun _ => none) ()).rho = 10 ^ 6 :=
  ⟨(nan_guess mcProp_ok _ _ _ _ _ _ 0 rfl).1,
    nan_rho mcProp_ok _ exCfg exSolver rfl rfl 50 1 _ _ _ 0 rfl
      (Or.inr ⟨by decide +kernel, 25, by decide, by decide, by decide⟩)⟩

end PolyMPC.AdmmNan
