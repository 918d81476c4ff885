import Verif.Model.Mpc
import Verif.Spec.Mpc
import Verif.Props.Ocp
import Verif.Props.Splines

/-!
# The MPC wrapper (C47, C48, C49)
-/

set_option linter.unusedSectionVars false
set_option linter.unusedVariables false

namespace PolyMPC.Mpc
open Ocp Splines Spec

section
variable {K : Type} [Field K] {d : Dims}

/-! ### Index arithmetic -/

theorem nn_eq (d : Dims) : d.NN - 1 = d.S * d.N := by unfold Dims.NN; omega

theorem varx_eq (d : Dims) : d.VARX = d.S * d.N * d.NX + d.NX := by unfold Dims.VARX Dims.NN; ring
theorem varu_eq (d : Dims) : d.VARU = d.S * d.N * d.NU + d.NU := by unfold Dims.VARU Dims.NN; ring
theorem nineq_eq (d : Dims) : d.NINEQ = d.S * d.N * d.NG + d.NG := by unfold Dims.NINEQ Dims.NN; ring

theorem rev_mul {n m : ℕ} (j : Fin (n + 1)) (i : Fin m) :
    (n - j) * m + i < n * m + m ∧ (n * m ≤ (n - j) * m + i ↔ j = 0) ∧ ((n - j) * m + i < m ↔ j = Fin.last n) ∧ ((n - j) * m + i) % m = i := by
  obtain ⟨j, hj⟩ := j
  obtain ⟨i, hi⟩ := i
  simp only
  refine ⟨?_, ?_, ?_, ?_⟩
  · have : (n - j) * m ≤ n * m := Nat.mul_le_mul_right _ (by omega)
    omega
  · rw [Fin.ext_iff]
    show _ ↔ j = 0
    constructor
    · intro h
      by_contra h0
      have : (n - j + 1) * m ≤ n * m := Nat.mul_le_mul_right _ (by omega)
      rw [Nat.add_mul, Nat.one_mul] at this
      omega
    · rintro rfl; simp
  · rw [Fin.ext_iff]
    show _ ↔ j = n
    constructor
    · intro h
      by_contra h0
      have : 1 * m ≤ (n - j) * m := Nat.mul_le_mul_right _ (by omega)
      omega
    · rintro rfl; simpa using hi
  · rw [Nat.mul_comm, Nat.mul_add_mod, Nat.mod_eq_of_lt hi]

/-! ### C47 -/

/-- What a vector of optimisation variables means: states, controls and parameters by node, as the callbacks see them. -/
def states (d : Dims) (v : ℕ → K) : Fin (d.S * d.N + 1) → Fin d.NX → K :=
  fun j i => node d v (d.S * d.N - j) ⟨i, by unfold Dims.M; omega⟩
def controls (d : Dims) (v : ℕ → K) : Fin (d.S * d.N + 1) → Fin d.NU → K :=
  fun j i => node d v (d.S * d.N - j) ⟨d.NX + i, by unfold Dims.M; omega⟩
def params (d : Dims) (v : ℕ → K) : Fin d.NP → K := fun i => node d v 0 ⟨d.NX + d.NU + i, by unfold Dims.M; omega⟩
/-- Bounds of the path constraints by node: constraint `i` at the problem's node `k` is row `k * NG + i`, see C38. -/
def paths (d : Dims) (v : ℕ → K) : Fin (d.S * d.N + 1) → Fin d.NG → K := fun j i => v ((d.S * d.N - j) * d.NG + i)

/-- The data of the wrapper. -/
def abs (w : Wrap d K) : Controller (d.S * d.N) d.NX d.NU d.NP d.NG K where
  xlb := states d w.lbx
  xub := states d w.ubx
  ulb := controls d w.lbx
  uub := controls d w.ubx
  plb := params d w.lbx
  pub := params d w.ubx
  glb := paths d w.lbg
  gub := paths d w.ubg
  x := states d w.x
  u := controls d w.x
  p := params d w.x
  lam := w.lam
  par := w.par
  t0 := w.ocp.tStart
  tf := w.ocp.tStop

/-- What each call should do. -/
def Does (a a' : Controller (d.S * d.N) d.NX d.NU d.NP d.NG K) : Call d K → Prop
  | .initialConditions x0 => a' = { a with xlb := atNode a.xlb 0 x0, xub := atNode a.xub 0 x0 }
  | .initialBounds lb ub => a' = { a with xlb := atNode a.xlb 0 lb, xub := atNode a.xub 0 ub }
  | .xLowerBound lb => a' = { a with xlb := afterFirst a.xlb lb }
  | .xUpperBound ub => a' = { a with xub := afterFirst a.xub ub }
  | .stateBounds lb ub => a' = { a with xlb := afterFirst a.xlb lb, xub := afterFirst a.xub ub }
  | .stateTrajectoryBounds lb ub => a' = { a with xlb := backwards lb, xub := backwards ub }
  | .xFinalLowerBound lb => a' = { a with xlb := atNode a.xlb (Fin.last _) lb }
  | .xFinalUpperBound ub => a' = { a with xub := atNode a.xub (Fin.last _) ub }
  | .finalStateBounds lb ub => a' = { a with xlb := atNode a.xlb (Fin.last _) lb, xub := atNode a.xub (Fin.last _) ub }
  | .uLowerBound lb => a' = { a with ulb := everywhere lb }
  | .uUpperBound ub => a' = { a with uub := everywhere ub }
  | .controlBounds lb ub => a' = { a with ulb := everywhere lb, uub := everywhere ub }
  | .controlTrajectoryBounds lb ub => a' = { a with ulb := backwards lb, uub := backwards ub }
  | .constraintsBounds lb ub => a' = { a with glb := everywhere lb, gub := everywhere ub }
  | .constraintsTrajectoryBounds lb ub => a' = { a with glb := backwards lb, gub := backwards ub }
  | .parametersBounds lb ub => a' = { a with plb := fun i => lb i, pub := fun i => ub i }
  | .setStaticParameters p => a' = { a with par := p }
  | .xGuess v => a' = { a with x := backwards v }
  | .uGuess v => a' = { a with u := backwards v }
  | .pGuess v => a' = { a with p := fun i => v i }
  | .lamGuess v => a' = { a with lam := v }
  | .setTimeLimits t0 tf => a' = { a with t0 := t0, tf := tf }
  | .solve _ => ∃ x u p lam, a' = { a with x := x, u := u, p := p, lam := lam }

omit [Field K] in
theorem states_apply (v : ℕ → K) (j : Fin (d.S * d.N + 1)) (i : Fin d.NX) : states d v j i = v ((d.S * d.N - j) * d.NX + i) := by
  simp [states, node]
omit [Field K] in
theorem controls_apply (v : ℕ → K) (j : Fin (d.S * d.N + 1)) (i : Fin d.NU) :
    controls d v j i = v (d.VARX + ((d.S * d.N - j) * d.NU + i)) := by
  have h : ¬ d.NX + i.val < d.NX := by omega
  simp only [controls, node, if_neg h, Nat.add_lt_add_iff_left, i.2, if_true, Nat.add_sub_cancel_left]
  congr 1; omega
omit [Field K] in
theorem params_apply (v : ℕ → K) (i : Fin d.NP) : params d v i = v (d.VARX + d.VARU + i) := by
  have h : ¬ d.NX + d.NU + i.val < d.NX := by omega
  have h' : ¬ d.NX + d.NU + i.val < d.NX + d.NU := by omega
  simp only [params, node, if_neg h, if_neg h']
  congr 1; omega

omit [Field K] in
theorem states_head (v w : ℕ → K) : states d (setSeg v 0 d.VARX w) = backwards w := by
  funext j i
  have h := rev_mul j i
  rw [states_apply, setSeg, if_pos ⟨by omega, by rw [varx_eq]; omega⟩]; rfl
omit [Field K] in
theorem states_first (v w : ℕ → K) : states d (setSeg v (d.VARX - d.NX) d.NX w) = atNode (states d v) 0 w := by
  funext j i
  have h := rev_mul j i
  rw [states_apply, setSeg, atNode, varx_eq, Nat.add_sub_cancel]
  by_cases hj : j = 0
  · rw [if_pos hj, if_pos ⟨h.2.1.2 hj, by omega⟩, hj]; simp
  · rw [if_neg hj, if_neg (fun hh => hj (h.2.1.1 hh.1)), states_apply]
omit [Field K] in
theorem states_last (v w : ℕ → K) : states d (setSeg v 0 d.NX w) = atNode (states d v) (Fin.last _) w := by
  funext j i
  have h := rev_mul j i
  rw [states_apply, setSeg, atNode]
  by_cases hj : j = Fin.last _
  · rw [if_pos hj, if_pos ⟨by omega, by have := h.2.2.1.2 hj; omega⟩, hj]; simp
  · rw [if_neg hj, if_neg (fun hh => hj (h.2.2.1.1 (by omega))), states_apply]
omit [Field K] in
theorem states_after (v w : ℕ → K) : states d (setSeg v 0 (d.VARX - d.NX) (replicate d.NX w)) = afterFirst (states d v) w := by
  funext j i
  have h := rev_mul j i
  rw [states_apply, setSeg, afterFirst, varx_eq, Nat.add_sub_cancel]
  by_cases hj : j = 0
  · rw [if_pos hj, if_neg (fun hh => by have := h.2.1.2 hj; omega), states_apply]
  · rw [if_neg hj, if_pos ⟨by omega, by have := mt h.2.1.1 hj; omega⟩, replicate, Nat.sub_zero, h.2.2.2]
omit [Field K] in
theorem states_off (v w : ℕ → K) {a n : ℕ} (ha : d.VARX ≤ a) : states d (setSeg v a n w) = states d v := by
  funext j i
  have h := rev_mul j i
  have := varx_eq d
  rw [states_apply, setSeg, if_neg (by omega), states_apply]

omit [Field K] in
theorem controls_seg (v w : ℕ → K) : controls d (setSeg v d.VARX d.VARU w) = backwards w := by
  funext j i
  have h := rev_mul j i
  rw [controls_apply, setSeg, if_pos ⟨by omega, by rw [varu_eq]; omega⟩, Nat.add_sub_cancel_left]; rfl
omit [Field K] in
theorem controls_low (v w : ℕ → K) {a n : ℕ} (ha : a + n ≤ d.VARX) : controls d (setSeg v a n w) = controls d v := by
  funext j i
  rw [controls_apply, setSeg, if_neg (by omega), controls_apply]
omit [Field K] in
theorem controls_high (v w : ℕ → K) {a n : ℕ} (ha : d.VARX + d.VARU ≤ a) : controls d (setSeg v a n w) = controls d v := by
  funext j i
  have h := rev_mul j i
  have := varu_eq d
  rw [controls_apply, setSeg, if_neg (by omega), controls_apply]

omit [Field K] in
theorem params_seg (v w : ℕ → K) : params d (setSeg v (d.VAR - d.NP) d.NP w) = fun i : Fin d.NP => w i := by
  funext i
  have : d.VAR - d.NP = d.VARX + d.VARU := by unfold Dims.VAR; omega
  rw [params_apply, setSeg, this, if_pos ⟨by omega, by omega⟩, Nat.add_sub_cancel_left]
omit [Field K] in
theorem params_low (v w : ℕ → K) {a n : ℕ} (ha : a + n ≤ d.VARX + d.VARU) : params d (setSeg v a n w) = params d v := by
  funext i
  rw [params_apply, setSeg, if_neg (by omega), params_apply]

omit [Field K] in
theorem paths_seg (v w : ℕ → K) : paths d (setSeg v 0 d.NINEQ w) = backwards w := by
  funext j i
  have h := rev_mul j i
  rw [paths, setSeg, if_pos ⟨by omega, by rw [nineq_eq]; omega⟩]; rfl
theorem var_tail (d : Dims) : d.VAR - d.NP = d.VARX + d.VARU := by unfold Dims.VAR; omega
theorem nx_le (d : Dims) : d.NX ≤ d.VARX := by rw [varx_eq]; omega

variable [DecidableEq K]

omit [Field K] [DecidableEq K] in
theorem backwards_rep {n m : ℕ} (w : ℕ → K) : (backwards (replicate m w) : Fin (n + 1) → Fin m → K) = everywhere w := by
  funext j i
  rw [backwards, replicate, (rev_mul j i).2.2.2]; rfl

/-- **C47.** Every call changes exactly what it names. -/
theorem step_does (A : Approx K) (w : Wrap d K) (c : Call d K) : Does (abs w) (abs (step A w c)) c := by
  have hx := nx_le d
  have ht := var_tail d
  have f1 : ∀ v w : ℕ → K, controls d (setSeg v (d.VARX - d.NX) d.NX w) = controls d v := fun v w => controls_low v w (by omega)
  have f2 : ∀ v w : ℕ → K, controls d (setSeg v 0 (d.VARX - d.NX) w) = controls d v := fun v w => controls_low v w (by omega)
  have f3 : ∀ v w : ℕ → K, controls d (setSeg v 0 d.VARX w) = controls d v := fun v w => controls_low v w (by omega)
  have f4 : ∀ v w : ℕ → K, controls d (setSeg v 0 d.NX w) = controls d v := fun v w => controls_low v w (by omega)
  have f5 : ∀ v w : ℕ → K, controls d (setSeg v (d.VAR - d.NP) d.NP w) = controls d v := fun v w => controls_high v w (by omega)
  have g1 : ∀ v w : ℕ → K, params d (setSeg v (d.VARX - d.NX) d.NX w) = params d v := fun v w => params_low v w (by omega)
  have g2 : ∀ v w : ℕ → K, params d (setSeg v 0 (d.VARX - d.NX) w) = params d v := fun v w => params_low v w (by omega)
  have g3 : ∀ v w : ℕ → K, params d (setSeg v 0 d.VARX w) = params d v := fun v w => params_low v w (by omega)
  have g4 : ∀ v w : ℕ → K, params d (setSeg v 0 d.NX w) = params d v := fun v w => params_low v w (by omega)
  have g5 : ∀ v w : ℕ → K, params d (setSeg v d.VARX d.VARU w) = params d v := fun v w => params_low v w (by omega)
  have h1 : ∀ v w : ℕ → K, states d (setSeg v d.VARX d.VARU w) = states d v := fun v w => states_off v w (by omega)
  have h2 : ∀ v w : ℕ → K, states d (setSeg v (d.VAR - d.NP) d.NP w) = states d v := fun v w => states_off v w (by omega)
  cases c
  case solve sol => exact ⟨_, _, _, _, rfl⟩
  case setTimeLimits t0 tf => rfl
  all_goals
    simp only [Does, step, abs, initialConditions, initialBounds, xLowerBound, xUpperBound, stateBounds, stateTrajectoryBounds, xFinalLowerBound,
      xFinalUpperBound, finalStateBounds, uLowerBound, uUpperBound, controlBounds, controlTrajectoryBounds, constraintsBounds,
      constraintsTrajectoryBounds, parametersBounds, setStaticParameters, xGuess, uGuess, pGuess, lamGuess,
      states_head, states_first, states_last, states_after, controls_seg, paths_seg, backwards_rep,
      f1, f2, f3, f4, f5, g1, g2, g3, g4, g5, h1, h2]
  all_goals congr 1 <;> exact params_seg _ _

/-- A sequence of calls, each doing what it should. -/
def Trace : Controller (d.S * d.N) d.NX d.NU d.NP d.NG K → List (Call d K) → Controller (d.S * d.N) d.NX d.NU d.NP d.NG K → Prop
  | a, [], a' => a' = a
  | a, c :: cs, a' => ∃ b, Does a b c ∧ Trace b cs a'

/-- **C47.** The wrapper refines the abstract controller, for every sequence of calls. -/
theorem run_does (A : Approx K) (w : Wrap d K) (cs : List (Call d K)) : Trace (abs w) cs (abs (run A w cs)) := by
  induction cs generalizing w with
  | nil => rfl
  | cons c cs ih => exact ⟨_, step_does A w c, ih _⟩

/-- **C47.** Of two calls that set the initial condition the last one counts, and nothing else remains of the first. -/
theorem initial_twice (w : Wrap d K) (x0 x1 : ℕ → K) :
    initialConditions (initialConditions w x0) x1 = initialConditions w x1 := by
  have h : ∀ v : ℕ → K, ∀ a n, setSeg (setSeg v a n x0) a n x1 = setSeg v a n x1 := by
    intro v a n; funext i; unfold setSeg; split <;> rfl
  simp only [initialConditions, h]

/-- The calls that may change the bounds of the initial state. -/
def SetsInitial : Call d K → Prop
  | .initialConditions _ => True
  | .initialBounds _ _ => True
  | .stateTrajectoryBounds _ _ => True
  | .xFinalLowerBound _ | .xFinalUpperBound _ | .finalStateBounds _ _ => d.S * d.N = 0
  | _ => False

/-- **C47.** The initial condition survives all other calls. -/
theorem initial_kept (A : Approx K) (w : Wrap d K) (cs : List (Call d K)) (h : ∀ c ∈ cs, ¬ SetsInitial c) :
    (abs (run A w cs)).xlb 0 = (abs w).xlb 0 ∧ (abs (run A w cs)).xub 0 = (abs w).xub 0 := by
  induction cs generalizing w with
  | nil => exact ⟨rfl, rfl⟩
  | cons c cs ih =>
    have h1 := ih (step A w c) fun c' hc' => h c' (List.mem_cons_of_mem _ hc')
    have h2 := step_does A w c
    have h3 := h c List.mem_cons_self
    have key : (abs (step A w c)).xlb 0 = (abs w).xlb 0 ∧ (abs (step A w c)).xub 0 = (abs w).xub 0 := by
      have hl : d.S * d.N ≠ 0 → (0 : Fin (d.S * d.N + 1)) ≠ Fin.last _ := fun hn he => hn (by simpa [Fin.ext_iff] using he.symm)
      cases c <;> simp only [Does, SetsInitial, not_true_eq_false, not_false_eq_true] at h2 h3
      case solve => obtain ⟨_, _, _, _, h2⟩ := h2; rw [h2]; exact ⟨rfl, rfl⟩
      all_goals rw [h2]
      all_goals refine ⟨funext fun i => ?_, funext fun i => ?_⟩
      all_goals first | rfl | exact if_neg (hl h3)
    exact ⟨h1.1.trans key.1, h1.2.trans key.2⟩

/-- **C47.** Bounds for the final state are lost when the state bounds are set afterwards; in the other order both are in force. -/
theorem final_then_state (A : Approx K) (w : Wrap d K) (hn : 1 ≤ d.S * d.N) (lb ub flb fub : ℕ → K) :
    (abs (run A w [.finalStateBounds flb fub, .stateBounds lb ub])).xlb (Fin.last _) = (fun i : Fin d.NX => lb i) ∧
    (abs (run A w [.finalStateBounds flb fub, .stateBounds lb ub])).xub (Fin.last _) = (fun i : Fin d.NX => ub i) ∧
    (abs (run A w [.stateBounds lb ub, .finalStateBounds flb fub])).xlb (Fin.last _) = (fun i : Fin d.NX => flb i) ∧
    (abs (run A w [.stateBounds lb ub, .finalStateBounds flb fub])).xub (Fin.last _) = (fun i : Fin d.NX => fub i) := by
  have hl : Fin.last (d.S * d.N) ≠ 0 := fun he => by have := congrArg Fin.val he; simp only [Fin.val_last, Fin.val_zero] at this; omega
  have h1 := step_does A (step A w (.finalStateBounds flb fub)) (.stateBounds lb ub)
  have h2 := step_does A (step A w (.stateBounds lb ub)) (.finalStateBounds flb fub)
  simp only [Does] at h1 h2
  simp only [run, List.foldl]
  rw [h1, h2]
  refine ⟨?_, ?_, ?_, ?_⟩
  · exact funext fun i => if_neg hl
  · exact funext fun i => if_neg hl
  · exact funext fun i => if_pos rfl
  · exact funext fun i => if_pos rfl

/-! ### C48 -/

/-- **C48.** `solution_x_at(k)` and column `k` of the reshaped trajectory are the state at node `k`. -/
theorem x_at (w : Wrap d K) (k : Fin (d.S * d.N + 1)) (i : Fin d.NX) :
    solutionXAt w k i = some ((abs w).x k i) ∧ solutionXReshaped w i k = (abs w).x k i ∧
    solutionX w ((d.S * d.N - k) * d.NX + i) = (abs w).x k i := by
  have hx := states_apply w.x k i
  refine ⟨?_, ?_, hx.symm⟩
  · have h1 : (d.VARX : ℤ) - (k.val + 1) * d.NX = ((d.S * d.N - k.val) * d.NX : ℕ) := by
      rw [varx_eq]; push_cast [Nat.cast_sub (Nat.lt_succ_iff.1 k.2)]; ring
    have h2 := (rev_mul k i).1
    have h3 : (d.S * d.N - k.val) * d.NX + d.NX ≤ d.VAR := by
      unfold Dims.VAR; rw [varx_eq]
      have : (d.S * d.N - k.val) * d.NX ≤ d.S * d.N * d.NX := Nat.mul_le_mul_right _ (by omega)
      omega
    unfold solutionXAt
    simp only [h1]
    rw [if_pos ⟨by omega, by exact_mod_cast h3⟩, Int.toNat_natCast]
    exact congrArg some hx.symm
  · rw [solutionXReshaped, nn_eq]; exact hx.symm

/-- **C48.** The same for the controls. -/
theorem u_at (w : Wrap d K) (k : Fin (d.S * d.N + 1)) (i : Fin d.NU) :
    solutionUAt w k i = some ((abs w).u k i) ∧ solutionUReshaped w i k = (abs w).u k i ∧
    solutionU w ((d.S * d.N - k) * d.NU + i) = (abs w).u k i := by
  have hx := controls_apply w.x k i
  refine ⟨?_, ?_, hx.symm⟩
  · have h1 : (d.VARX : ℤ) + d.VARU - (k.val + 1) * d.NU = (d.VARX + (d.S * d.N - k.val) * d.NU : ℕ) := by
      rw [varu_eq]; push_cast [Nat.cast_sub (Nat.lt_succ_iff.1 k.2)]; ring
    have h3 : d.VARX + (d.S * d.N - k.val) * d.NU + d.NU ≤ d.VAR := by
      unfold Dims.VAR; rw [varu_eq]
      have : (d.S * d.N - k.val) * d.NU ≤ d.S * d.N * d.NU := Nat.mul_le_mul_right _ (by omega)
      omega
    unfold solutionUAt
    simp only [h1]
    rw [if_pos ⟨by omega, by exact_mod_cast h3⟩, Int.toNat_natCast, Nat.add_assoc]
    exact congrArg some hx.symm
  · rw [solutionUReshaped, nn_eq]; exact hx.symm

/-- **C48.** `solution_p` returns the parameters. -/
theorem p_at (w : Wrap d K) (i : Fin d.NP) : solutionP w i = (abs w).p i := by
  rw [solutionP, var_tail]; exact (params_apply w.x i).symm

/-- **C48.** Feeding the solution back as guess changes nothing. -/
theorem warm_start (w : Wrap d K) : pGuess (uGuess (xGuess w (solutionX w)) (solutionU w)) (solutionP w) = w := by
  have h : ∀ (v : ℕ → K) a n, setSeg v a n (fun i => v (a + i)) = v := by
    intro v a n; funext i; unfold setSeg; split_ifs with hi
    · show v (a + (i - a)) = v i
      rw [Nat.add_sub_cancel' hi.1]
    · rfl
  have h0 := h w.x 0 d.VARX
  simp only [Nat.zero_add] at h0
  unfold pGuess uGuess xGuess solutionX solutionU solutionP
  have e : (fun i => w.x i) = w.x := rfl
  rw [e] at h0
  simp only [h0, h]

/-- **C84.** Node numbers out of range are not always rejected: for one past the last node `solution_u_at` returns components of the state
that is stored last, the initial state when `NU ≤ NX`. -/
theorem u_at_beyond (w : Wrap d K) (hu : d.NU ≤ d.NX) (i : Fin d.NU) :
    solutionUAt w (d.S * d.N + 1 : ℕ) i = some ((abs w).x 0 ⟨d.NX - d.NU + i, by omega⟩) := by
  have h1 : (d.VARX : ℤ) + d.VARU - (((d.S * d.N + 1 : ℕ) : ℤ) + 1) * d.NU = (d.VARX - d.NU : ℕ) := by
    rw [Nat.cast_sub (hu.trans (nx_le d)), varu_eq]; push_cast; ring
  unfold solutionUAt
  simp only [h1]
  have := nx_le d
  rw [if_pos ⟨by omega, by unfold Dims.VAR; omega⟩, Int.toNat_natCast]
  congr 1
  show _ = states d w.x _ _
  rw [states_apply, varx_eq]
  congr 1
  show _ = (d.S * d.N - 0) * d.NX + (d.NX - d.NU + i)
  rw [Nat.sub_zero]; omega

/-- **C84.** For node `-1` `solution_x_at` returns the first stored controls. -/
theorem x_at_minus_one (w : Wrap d K) (hu : d.NX ≤ d.NU) (i : Fin d.NX) :
    solutionXAt w (-1) i = some ((abs w).u (Fin.last _) ⟨i, by omega⟩) := by
  unfold solutionXAt
  have h3 := varu_eq d
  simp only [Int.reduceNeg, neg_add_cancel, zero_mul, sub_zero]
  rw [if_pos ⟨by omega, by unfold Dims.VAR; omega⟩, Int.toNat_natCast]
  congr 1
  show _ = controls d w.x _ _
  rw [controls_apply]
  simp

/-- **C84.** Past the last node `solution_x_at` fails its range assertion. -/
theorem x_at_beyond (w : Wrap d K) (hx : 1 ≤ d.NX) {k : ℤ} (hk : (d.S * d.N + 1 : ℕ) ≤ k) (i : ℕ) : solutionXAt w k i = none := by
  unfold solutionXAt
  rw [if_neg]
  intro h
  have h1 := h.1
  rw [varx_eq] at h1
  push_cast at h1 hk
  have : ((d.S : ℤ) * d.N + 2) * d.NX ≤ (k + 1) * d.NX := mul_le_mul_of_nonneg_right (by omega) (by omega)
  have hx' : (1 : ℤ) ≤ d.NX := by exact_mod_cast hx
  nlinarith

end

/-! ### C48, C49: times -/

section Times
variable {d : Dims}
open Polynomial

/-- Wrappers as a user can have them: the problem's horizon was set at construction of the problem (continuous_ocp.hpp:49-54 does what
`set_time_limits` does), then the wrapper was constructed, then any calls were made. -/
def Reachable (A : Approx ℝ) (w : Wrap d ℝ) : Prop :=
  ∃ (w0 : Wrap d ℝ) (o : Obj d ℝ) (t0 tf : ℝ) (cs : List (Call d ℝ)),
    w0.ocp = setTimeLimits d A o t0 tf ∧ w = run A (construct w0) cs

/-- The wrapper's data agree with the problem. -/
structure Synced (A : Approx ℝ) (w : Wrap d ℝ) : Prop where
  time : ∃ o, w.ocp.time = (setTimeLimits d A o w.ocp.tStart w.ocp.tStop).time
  grid : ∀ k, w.grid k = w.ocp.time (d.S * d.N - k)
  nodes : ∀ j, w.nodes j = w.ocp.time (d.S * d.N - j)
  basis : w.basis = lagrangeBasis w.nodes
  len : w.len = (w.ocp.tStop - w.ocp.tStart) / d.S
  nps : w.nps = d.NN / d.S

theorem reachable_synced {A : Approx ℝ} {w : Wrap d ℝ} (h : Reachable A w) : Synced A w := by
  obtain ⟨w0, o, t0, tf, cs, ho, rfl⟩ := h
  have h0 : Synced A (construct w0) := by
    refine ⟨⟨o, ?_⟩, fun k => ?_, fun j => ?_, rfl, rfl, rfl⟩
    · show w0.ocp.time = (setTimeLimits d A o w0.ocp.tStart w0.ocp.tStop).time
      rw [ho]; rfl
    · show w0.ocp.time (d.NN - 1 - k) = w0.ocp.time _; rw [nn_eq]
    · show w0.ocp.time (d.NN - 1 - j) = w0.ocp.time _; rw [nn_eq]
  generalize construct w0 = w1 at h0
  induction cs generalizing w1 with
  | nil => exact h0
  | cons c cs ih =>
    refine ih (step A w1 c) ?_
    cases c
    case setTimeLimits t0 tf =>
      refine ⟨⟨w1.ocp, rfl⟩, fun k => ?_, fun j => ?_, rfl, rfl, h0.nps⟩
      · show (setTimeLimits d A w1.ocp t0 tf).time (d.NN - 1 - k) = (setTimeLimits d A w1.ocp t0 tf).time _; rw [nn_eq]
      · show (setTimeLimits d A w1.ocp t0 tf).time (d.NN - 1 - j) = (setTimeLimits d A w1.ocp t0 tf).time _; rw [nn_eq]
    all_goals exact ⟨h0.time, h0.grid, h0.nodes, h0.basis, h0.len, h0.nps⟩

/-- **C48.** `time_grid` holds the times of the nodes in increasing order: entry `k` is the time that the problem's callbacks receive
together with the state `solution_x_at(k)`; it runs from start to end of the horizon. -/
theorem grid_times {A : Approx ℝ} (hA : GoodNodes d.N A) (hS : 1 ≤ d.S) {w : Wrap d ℝ} (hw : Reachable A w) (h : w.ocp.tStart < w.ocp.tStop) :
    (∀ k : Fin (d.S * d.N + 1), w.grid k = w.ocp.time (d.S * d.N - k) ∧
      ∀ i : Fin d.NX, solutionXAt w k i = some (node d w.x (d.S * d.N - k) ⟨i, by unfold Dims.M; omega⟩)) ∧
    w.grid 0 = w.ocp.tStart ∧ w.grid (d.S * d.N) = w.ocp.tStop ∧
    ∀ k k', k < k' → k' ≤ d.S * d.N → w.grid k < w.grid k' := by
  have hs := reachable_synced hw
  obtain ⟨o, ho⟩ := hs.time
  have hj := time_junctions d A hA hS o w.ocp.tStart w.ocp.tStop
  refine ⟨fun k => ⟨hs.grid k, fun i => (x_at w k i).1⟩, ?_, ?_, ?_⟩
  · rw [hs.grid, ho, Nat.sub_zero, ← nn_eq]; exact hj.2.1
  · rw [hs.grid, ho, Nat.sub_self]; exact hj.1
  · intro k k' hk hk'
    rw [hs.grid, hs.grid, ho]
    exact time_strictAnti d A hA o h (by omega) (by unfold Dims.NN; omega)

/-- Node `j` of segment `s`, both counted in increasing time, is node `j` of the first segment shifted by `s` segment lengths. -/
theorem grid_shift {A : Approx ℝ} (hA : GoodNodes d.N A) {w : Wrap d ℝ} (hs : Synced A w) {s j : ℕ} (h : s < d.S) (hj : j ≤ d.N) :
    w.grid (s * d.N + j) = w.ocp.tStart + s * w.len + (1 + A.nodes (d.N - j)) * (w.len / 2) := by
  obtain ⟨o, ho⟩ := hs.time
  have hS : (d.S : ℝ) ≠ 0 := by exact_mod_cast (by omega : d.S ≠ 0)
  have hidx : d.S * d.N - (s * d.N + j) = (d.S - 1 - s) * d.N + (d.N - j) := by
    obtain ⟨m, hm⟩ : ∃ m, d.S = s + 1 + m := ⟨d.S - (s + 1), by omega⟩
    have e : d.S * d.N = s * d.N + d.N + m * d.N := by rw [hm]; ring
    have e2 : d.S - 1 - s = m := by omega
    rw [e2]; omega
  rw [hs.grid, hidx, ho, time_grid d A hA o _ _ (show d.S - 1 - s < d.S by omega) (Nat.sub_le _ _), hs.len,
    show d.S - 1 - s = d.S - (1 + s) by omega, Nat.cast_sub (by omega)]
  push_cast
  field_simp
  ring

theorem seg_index {w : Wrap d ℝ} (hl : 0 < w.len) {t : ℝ} (hlo : -2 ^ 63 * w.len ≤ t) (hhi : t < 2 ^ 63 * w.len) :
    segIndex w t = some (max 0 (min ⌊t / w.len⌋ (d.S - 1))) := by
  have h1 : -2 ^ 63 ≤ ⌊t / w.len⌋ := by rw [Int.le_floor]; push_cast; exact (le_div_iff₀ hl).mpr (by norm_num at hlo ⊢; exact hlo)
  have h2 : ⌊t / w.len⌋ < 2 ^ 63 := by rw [Int.floor_lt]; push_cast; exact (div_lt_iff₀ hl).mpr (by norm_num at hhi ⊢; exact hhi)
  rw [segIndex, if_neg hl.ne', if_neg (by omega)]

/-- The first column of a segment. -/
theorem col_start (d : Dims) {s : ℕ} (h : s < d.S) : s * (d.NN / d.S) = s * d.N := by
  rcases Nat.lt_or_ge 1 d.S with h1 | h1
  · congr 1
    unfold Dims.NN
    rw [Nat.mul_add_div (by omega), Nat.div_eq_of_lt h1]; omega
  · have : s = 0 := by omega
    subst this; simp

/-- Evaluation on segment `s`: the interpolating polynomial of that segment. -/
theorem eval_on {A : Approx ℝ} (hA : GoodNodes d.N A) {w : Wrap d ℝ} (hs : Synced A w) (ht : w.ocp.tStart < w.ocp.tStop)
    {s : ℕ} (h : s < d.S) {t : ℝ} (hidx : segIndex w t = some (s : ℤ)) {m : ℕ} (cols : ℕ → ℕ → ℝ) (i : Fin m) :
    ∃ y, evalSeg w m cols t i = some y ∧ Interpolates d.N (fun j => w.grid (s * d.N + j)) (fun j => cols i (s * d.N + j)) t y := by
  have hN := one_le_N hA
  have hS : (0 : ℝ) < d.S := by exact_mod_cast (by omega : 0 < d.S)
  have hlen : 0 < w.len := by rw [hs.len]; exact div_pos (sub_pos.2 ht) hS
  have hnode : ∀ j : Fin (d.N + 1), w.nodes j = w.grid j := fun j => by rw [hs.nodes, hs.grid]
  have hshift : ∀ j : Fin (d.N + 1), w.grid (s * d.N + j) = w.nodes j + s * w.len := by
    intro j
    have h0 := grid_shift hA hs (show 0 < d.S by omega) (show j.val ≤ d.N by omega)
    have h1 := grid_shift hA hs h (show j.val ≤ d.N by omega)
    rw [Nat.zero_mul, Nat.zero_add] at h0
    rw [hnode, h0, h1]; push_cast; ring
  have hinj : Function.Injective w.nodes := by
    obtain ⟨o, ho⟩ := hs.time
    have hle : d.N ≤ d.S * d.N := Nat.le_mul_of_pos_left _ (by omega)
    have hmono : ∀ a b : Fin (d.N + 1), a < b → w.nodes a < w.nodes b := by
      intro a b hab
      have : a.val < b.val := hab
      rw [hs.nodes, hs.nodes, ho]
      exact time_strictAnti d A hA o ht (by omega) (by unfold Dims.NN; omega)
    intro a b hab
    rcases lt_trichotomy a b with h | h | h
    · exact absurd hab (hmono a b h).ne
    · exact h
    · exact absurd hab (hmono b a h).ne'
  obtain ⟨B, hB⟩ := Option.isSome_iff_exists.mp ((lagrangeBasis_defined (by omega) w.nodes).mpr hinj)
  -- the interpolating polynomial of the segment
  let v : Fin (d.N + 1) → ℝ := fun j => w.grid (s * d.N + j)
  have hv : Function.Injective v := fun a b hab => hinj (by
    have h1 := hshift a; have h2 := hshift b
    have : w.grid (s * d.N + a) = w.grid (s * d.N + b) := hab
    linarith)
  let Q : ℝ[X] := Lagrange.interpolate Finset.univ v fun j => cols i (s * d.N + j)
  have hQd : Q.natDegree ≤ d.N := by
    have := Lagrange.degree_interpolate_lt (s := Finset.univ) (v := v) (fun j : Fin (d.N + 1) => cols i (s * d.N + j)) hv.injOn
    rw [Finset.card_univ, Fintype.card_fin] at this
    by_cases hQ0 : Q = 0
    · rw [hQ0, natDegree_zero]; omega
    · exact Nat.lt_succ_iff.1 ((natDegree_lt_iff_degree_lt hQ0).2 this)
  have hQv : ∀ j : Fin (d.N + 1), Q.eval (v j) = cols i (s * d.N + j) := fun j =>
    Lagrange.eval_interpolate_at_node _ hv.injOn (Finset.mem_univ j)
  refine ⟨Q.eval t, ?_, Q, hQd, fun j hj => hQv ⟨j, by omega⟩, rfl⟩
  have hcol : s * w.nps = s * d.N := by rw [hs.nps, col_start d h]
  have hfit : s * d.N + (d.N + 1) ≤ d.NN := by
    unfold Dims.NN
    have : (s + 1) * d.N ≤ d.S * d.N := Nat.mul_le_mul_right _ h
    rw [Nat.add_mul, Nat.one_mul] at this; omega
  rw [evalSeg, hidx, Option.bind_some, hs.basis, hB, Option.bind_some, Int.toNat_natCast, hcol, if_pos hfit]
  congr 1
  have hrep := lagrangeEval_reproduces (by omega) hB (fun _ : Fin 1 => Q.comp (X + C (s * w.len))) (fun _ => by
    have : (Q.comp (X + C ((s : ℝ) * w.len))).natDegree ≤ Q.natDegree * 1 := by
      refine natDegree_comp_le.trans (Nat.mul_le_mul_left _ ?_)
      exact (natDegree_X_add_C _).le
    omega) (t - s * w.len) 0
  simp only [eval_comp, eval_add, eval_X, eval_C, sub_add_cancel] at hrep
  rw [← hrep]
  simp only [lagrangeEval, Int.cast_natCast]
  congr 1
  funext k
  refine Finset.sum_congr rfl fun j _ => ?_
  rw [← hshift j]
  show cols i (s * d.N + j) * _ = Q.eval (v j) * _
  rw [hQv]

/-- `t` lies in segment `s`; the last segment includes its end. -/
def InSegment (d : Dims) (t0 tf : ℝ) (s : ℕ) (t : ℝ) : Prop :=
  s < d.S ∧ t0 + s * ((tf - t0) / d.S) ≤ t ∧ (t < t0 + (s + 1) * ((tf - t0) / d.S) ∨ s + 1 = d.S ∧ t ≤ tf)

/-- The chosen segment is the one that contains `t` when the horizon starts at zero. -/
theorem index_zero {A : Approx ℝ} {w : Wrap d ℝ} (hs : Synced A w) (ht : w.ocp.tStart < w.ocp.tStop) (h0 : w.ocp.tStart = 0)
    (hS : d.S < 2 ^ 31) {s : ℕ} {t : ℝ} (h : InSegment d w.ocp.tStart w.ocp.tStop s t) : segIndex w t = some (s : ℤ) := by
  obtain ⟨hs1, h1, h2⟩ := h
  have hSp : (0 : ℝ) < d.S := by exact_mod_cast (by omega : 0 < d.S)
  have hlen : 0 < w.len := by rw [hs.len]; exact div_pos (sub_pos.2 ht) hSp
  rw [← hs.len, h0] at h1 h2
  have hS' : (d.S : ℝ) < 2 ^ 31 := by exact_mod_cast hS
  have hsS : ((s : ℝ) + 1) ≤ d.S := by exact_mod_cast hs1
  have htf : w.ocp.tStop = d.S * w.len := by rw [hs.len, h0]; field_simp; ring
  have hs0 : (0 : ℝ) ≤ s := Nat.cast_nonneg s
  have hup : t ≤ (s + 1) * w.len := by
    rcases h2 with h2 | ⟨h2, h3⟩
    · linarith
    · rw [htf] at h3
      have : (d.S : ℝ) = s + 1 := by exact_mod_cast h2.symm
      rwa [this] at h3
  have ht0 : 0 ≤ t := by nlinarith
  rw [seg_index hlen (by nlinarith) (by nlinarith)]
  congr 1
  have hf1 : (s : ℤ) ≤ ⌊t / w.len⌋ := by rw [Int.le_floor]; push_cast; exact (le_div_iff₀ hlen).mpr (by linarith)
  rcases h2 with h2 | ⟨h2, h3⟩
  · have hf2 : ⌊t / w.len⌋ < s + 1 := by rw [Int.floor_lt]; push_cast; exact (div_lt_iff₀ hlen).mpr (by linarith)
    omega
  · omega

/-- **C49.** With a horizon that starts at zero, `solution_x_at(t)` is the value at `t` of the polynomial that interpolates the states at the
nodes of the segment containing `t`. -/
theorem x_at_time {A : Approx ℝ} (hA : GoodNodes d.N A) (hS : d.S < 2 ^ 31) {w : Wrap d ℝ} (hw : Reachable A w)
    (ht : w.ocp.tStart < w.ocp.tStop) (h0 : w.ocp.tStart = 0) {s : ℕ} {t : ℝ} (h : InSegment d w.ocp.tStart w.ocp.tStop s t) (i : Fin d.NX) :
    ∃ y, solutionXAtTime w t i = some y ∧
      Interpolates d.N (fun j => w.grid (s * d.N + j)) (fun j => solutionXReshaped w i (s * d.N + j)) t y :=
  eval_on hA (reachable_synced hw) ht h.1 (index_zero (reachable_synced hw) ht h0 hS h) (solutionXReshaped w) i

/-- **C49.** The same for the controls. -/
theorem u_at_time {A : Approx ℝ} (hA : GoodNodes d.N A) (hS : d.S < 2 ^ 31) {w : Wrap d ℝ} (hw : Reachable A w)
    (ht : w.ocp.tStart < w.ocp.tStop) (h0 : w.ocp.tStart = 0) {s : ℕ} {t : ℝ} (h : InSegment d w.ocp.tStart w.ocp.tStop s t) (i : Fin d.NU) :
    ∃ y, solutionUAtTime w t i = some y ∧
      Interpolates d.N (fun j => w.grid (s * d.N + j)) (fun j => solutionUReshaped w i (s * d.N + j)) t y :=
  eval_on hA (reachable_synced hw) ht h.1 (index_zero (reachable_synced hw) ht h0 hS h) (solutionUReshaped w) i

/-- **C49.** With a single segment the start of the horizon does not matter, as long as the quotient of `t` and the horizon length fits the
index type. -/
theorem x_at_time_single {A : Approx ℝ} (hA : GoodNodes d.N A) (hS : d.S = 1) {w : Wrap d ℝ} (hw : Reachable A w)
    (ht : w.ocp.tStart < w.ocp.tStop) {t : ℝ} (hlo : -2 ^ 63 * (w.ocp.tStop - w.ocp.tStart) ≤ t)
    (hhi : t < 2 ^ 63 * (w.ocp.tStop - w.ocp.tStart)) (i : Fin d.NX) :
    ∃ y, solutionXAtTime w t i = some y ∧ Interpolates d.N w.grid (fun j => solutionXReshaped w i j) t y := by
  have hs := reachable_synced hw
  have hl : w.len = w.ocp.tStop - w.ocp.tStart := by rw [hs.len, hS]; simp
  have hidx : segIndex w t = some ((0 : ℕ) : ℤ) := by
    rw [seg_index (by rw [hl]; linarith) (by rw [hl]; exact hlo) (by rw [hl]; exact hhi), hS]
    congr 1; push_cast; omega
  have := eval_on hA hs ht (show 0 < d.S by omega) hidx (solutionXReshaped w) i
  simp only [Nat.zero_mul, Nat.zero_add] at this
  exact this

theorem nodes_mono {N : ℕ} {A : Approx ℝ} (hA : GoodNodes N A) (a b : ℕ) (hab : a < b) (hb : b ≤ N) : A.nodes b < A.nodes a := by
  induction b with
  | zero => omega
  | succ b ih =>
    rcases Nat.lt_or_ge a b with h | h
    · exact (hA.anti b (by omega)).trans (ih h (by omega))
    · have : a = b := by omega
      rw [this]; exact hA.anti b (by omega)

/-- **C49.** At the time of a node the state of that node is returned. -/
theorem x_at_node_time {A : Approx ℝ} (hA : GoodNodes d.N A) (hS : d.S < 2 ^ 31) (hS1 : 1 ≤ d.S) {w : Wrap d ℝ} (hw : Reachable A w)
    (ht : w.ocp.tStart < w.ocp.tStop) (h0 : w.ocp.tStart = 0) (k : Fin (d.S * d.N + 1)) (i : Fin d.NX) :
    solutionXAtTime w (w.grid k) i = solutionXAt w k i := by
  have hN := one_le_N hA
  have hs := reachable_synced hw
  have hSp : (0 : ℝ) < d.S := by exact_mod_cast hS1
  have hlen : 0 < w.len := by rw [hs.len]; exact div_pos (sub_pos.2 ht) hSp
  obtain ⟨s, j, hsS, hj, hcase, hk⟩ := node_split d hS1 hN (show k.val < d.NN from k.2)
  have hg := grid_shift hA hs hsS hj
  have hmono := nodes_mono hA
  have hlow : -1 ≤ A.nodes (d.N - j) := by
    rcases Nat.eq_zero_or_pos j with h | h
    · rw [h, Nat.sub_zero, hA.last]
    · rw [← hA.last]; exact (hmono _ _ (by omega) le_rfl).le
  have hin : InSegment d w.ocp.tStart w.ocp.tStop s (w.grid k) := by
    refine ⟨hsS, ?_, ?_⟩
    · rw [← hs.len, hk, hg]; nlinarith
    · rw [← hs.len, hk, hg]
      rcases hcase with h | h
      · left
        have : A.nodes (d.N - j) < 1 := by rw [← hA.first]; exact hmono _ _ (by omega) (Nat.sub_le _ _)
        nlinarith
      · right
        refine ⟨h, ?_⟩
        have hhi : A.nodes (d.N - j) ≤ 1 := by
          rcases Nat.eq_zero_or_pos (d.N - j) with h' | h'
          · rw [h', hA.first]
          · rw [← hA.first]; exact (hmono _ _ h' (Nat.sub_le _ _)).le
        have e : w.ocp.tStop = w.ocp.tStart + d.S * w.len := by rw [hs.len]; field_simp; ring
        have : (d.S : ℝ) = s + 1 := by exact_mod_cast h.symm
        rw [e, this]; nlinarith
  obtain ⟨y, hy, Q, -, hQ, hQt⟩ := x_at_time hA hS hw ht h0 hin i
  rw [hy, (x_at w k i).1, ← (x_at w k i).2.1, ← hQt]
  congr 1
  have := hQ j hj
  simp only at this
  rw [hk]; exact this

/-- A trajectory that is zero but for the first component at one node. -/
def spike (d : Dims) (c0 : ℕ) (a : ℝ) : ℕ → ℝ := fun p => if p = (d.S * d.N - c0) * d.NX then a else 0

theorem spike_col (hx : 1 ≤ d.NX) (w : Wrap d ℝ) {c0 c : ℕ} (h0 : c0 ≤ d.S * d.N) (hc : c ≤ d.S * d.N) (a : ℝ) :
    solutionXReshaped (xGuess w (spike d c0 a)) 0 c = if c = c0 then a else 0 := by
  have hin : (d.S * d.N - c) * d.NX < d.VARX := by
    rw [varx_eq]
    have : (d.S * d.N - c) * d.NX ≤ d.S * d.N * d.NX := Nat.mul_le_mul_right _ (Nat.sub_le _ _)
    omega
  rw [solutionXReshaped, nn_eq]
  show setSeg w.x 0 d.VARX (spike d c0 a) _ = _
  rw [setSeg, if_pos ⟨by omega, by omega⟩, spike]
  by_cases h : c = c0
  · rw [if_pos h, if_pos (by rw [h]; omega)]
  · rw [if_neg h, if_neg]
    intro he
    have : d.S * d.N - c = d.S * d.N - c0 := Nat.eq_of_mul_eq_mul_right hx (by omega)
    omega

/-- Evaluation on a segment where all values vanish. -/
theorem eval_zero (w : Wrap d ℝ) {m : ℕ} (cols : ℕ → ℕ → ℝ) (t : ℝ) (i : Fin m)
    (h : ∀ idx, segIndex w t = some idx → ∀ j ≤ d.N, idx.toNat * w.nps + (d.N + 1) ≤ d.NN → cols i (idx.toNat * w.nps + j) = 0)
    {y : ℝ} (hy : y ≠ 0) : evalSeg w m cols t i ≠ some y := by
  intro he
  unfold evalSeg at he
  obtain ⟨idx, hidx, he⟩ := Option.bind_eq_some_iff.1 he
  obtain ⟨B, -, he⟩ := Option.bind_eq_some_iff.1 he
  split_ifs at he with hf
  have he := Option.some.inj he
  apply hy
  rw [← he]
  simp only [lagrangeEval, polyEval]
  refine Finset.sum_eq_zero fun k _ => ?_
  rw [Finset.sum_eq_zero fun j _ => ?_, zero_mul]
  rw [h idx hidx j (Nat.lt_succ_iff.1 j.2) hf, zero_mul]

/-- **C49.** With several segments and a horizon that does not start at zero there are a time in the horizon and a trajectory for which
the value returned is not that of the interpolating polynomial of the segment. -/
theorem x_at_time_shifted {A : Approx ℝ} (hA : GoodNodes d.N A) (hS : 2 ≤ d.S) (hx : 1 ≤ d.NX) {w : Wrap d ℝ} (hw : Reachable A w)
    (ht : w.ocp.tStart < w.ocp.tStop) (h0 : w.ocp.tStart ≠ 0) :
    ∃ (v : ℕ → ℝ) (s : ℕ) (t y : ℝ), InSegment d w.ocp.tStart w.ocp.tStop s t ∧
      Interpolates d.N (fun j => w.grid (s * d.N + j)) (fun j => solutionXReshaped (xGuess w v) 0 (s * d.N + j)) t y ∧
      solutionXAtTime (xGuess w v) t ⟨0, hx⟩ ≠ some y := by
  have hs := reachable_synced hw
  have hN := one_le_N hA
  have hSp : (0 : ℝ) < d.S := by exact_mod_cast (by omega : 0 < d.S)
  have hlen : 0 < w.len := by rw [hs.len]; exact div_pos (sub_pos.2 ht) hSp
  have hinj : ∀ a b, a ≤ d.S * d.N → b ≤ d.S * d.N → w.grid a = w.grid b → a = b := by
    have hm := (grid_times hA (by omega) hw ht).2.2.2
    intro a b ha hb hab
    rcases lt_trichotomy a b with h | h | h
    · exact absurd hab (hm a b h hb).ne
    · exact h
    · exact absurd hab (hm b a h ha).ne'
  -- a segment `s`, one of its nodes that no other segment has, and times in the segment for which another segment is chosen
  have main : ∀ (s : ℕ) (l : Fin (d.N + 1)) (lo hi : ℝ), s < d.S → lo < hi →
      (∀ t, lo < t → t < hi → w.ocp.tStart + s * w.len ≤ t ∧ t < w.ocp.tStart + (s + 1) * w.len) →
      (∀ t, lo < t → t < hi → ∀ idx, segIndex w t = some idx → ∀ j ≤ d.N, idx.toNat * w.nps + j ≠ s * d.N + l) →
      ∃ (v : ℕ → ℝ) (s : ℕ) (t y : ℝ), InSegment d w.ocp.tStart w.ocp.tStop s t ∧
        Interpolates d.N (fun j => w.grid (s * d.N + j)) (fun j => solutionXReshaped (xGuess w v) 0 (s * d.N + j)) t y ∧
        solutionXAtTime (xGuess w v) t ⟨0, hx⟩ ≠ some y := by
    intro s l lo hi hsS hlohi hseg hoff
    have hle : ∀ j ≤ d.N, s * d.N + j ≤ d.S * d.N := by
      intro j hj
      have : (s + 1) * d.N ≤ d.S * d.N := Nat.mul_le_mul_right _ hsS
      rw [Nat.add_mul, Nat.one_mul] at this; omega
    let τ : Fin (d.N + 1) → ℝ := fun j => w.grid (s * d.N + j)
    obtain ⟨t, htIn, htn⟩ := (Set.Ioo_infinite hlohi).exists_notMem_finset (Finset.univ.image τ)
    have htn' : ∀ j, t ≠ τ j := fun j he => htn (Finset.mem_image.2 ⟨j, Finset.mem_univ j, he.symm⟩)
    have hl : s * d.N + l ≤ d.S * d.N := hle l (Nat.lt_succ_iff.1 l.2)
    refine ⟨spike d (s * d.N + l) ((others τ l).eval (τ l)), s, t, (others τ l).eval t, ⟨hsS, ?_, Or.inl ?_⟩, ⟨others τ l, ?_, ?_, rfl⟩, ?_⟩
    · rw [← hs.len]; exact (hseg t htIn.1 htIn.2).1
    · rw [← hs.len]; exact (hseg t htIn.1 htIn.2).2
    · exact Nat.lt_succ_iff.1 (others_natDegree τ l)
    · intro j hj
      simp only
      rw [spike_col hx w hl (hle j hj)]
      by_cases hjl : j = l.val
      · rw [if_pos (by rw [hjl]), hjl]
      · rw [if_neg (by omega), others_eval]
        exact Finset.prod_eq_zero (i := ⟨j, by omega⟩)
          (Finset.mem_erase.2 ⟨fun h => hjl (by rw [← h]), Finset.mem_univ _⟩) (sub_self _)
    · refine eval_zero (xGuess w _) _ t ⟨0, hx⟩ (fun idx hidx j hj hf => ?_) ?_
      · have hf' : idx.toNat * w.nps + (d.N + 1) ≤ d.NN := hf
        have := hoff t htIn.1 htIn.2 idx hidx j hj
        show solutionXReshaped _ 0 (idx.toNat * w.nps + j) = 0
        rw [spike_col hx w hl (by unfold Dims.NN at hf'; omega), if_neg this]
      · rw [others_eval]
        exact Finset.prod_ne_zero_iff.2 fun j _ => sub_ne_zero.2 (htn' j)
  have hsegs : ∀ t idx, segIndex w t = some idx → idx = max 0 (min ⌊t / w.len⌋ (d.S - 1)) := by
    intro t idx h
    unfold segIndex at h
    split_ifs at h with h1 h2
    exact (Option.some.inj h).symm
  rcases lt_or_gt_of_ne h0 with hneg | hpos
  · -- the last segment starts before the index reaches it
    have hc : ((d.S - 1 : ℕ) : ℝ) = d.S - 1 := by rw [Nat.cast_sub (by omega)]; push_cast; rfl
    have e : w.ocp.tStop = w.ocp.tStart + d.S * w.len := by rw [hs.len]; field_simp; ring
    refine main (d.S - 1) (Fin.last d.N) (w.ocp.tStart + (d.S - 1) * w.len) (min w.ocp.tStop ((d.S - 1) * w.len)) (by omega) ?_ ?_ ?_
    · rw [lt_min_iff]; constructor
      · rw [e]; nlinarith
      · linarith
    · intro t h1 h2
      rw [hc]
      refine ⟨h1.le, ?_⟩
      have := lt_of_lt_of_le h2 (min_le_left _ _)
      rw [e] at this; linarith
    · intro t h1 h2 idx hidx j hj
      have hlt : t < (d.S - 1) * w.len := lt_of_lt_of_le h2 (min_le_right _ _)
      have hf : ⌊t / w.len⌋ < (d.S : ℤ) - 1 := by
        rw [Int.floor_lt]; push_cast; exact (div_lt_iff₀ hlen).2 hlt
      have hi := hsegs t idx hidx
      have hi2 : idx.toNat + 1 < d.S := by omega
      rw [hs.nps, col_start d (by omega)]
      have h3 : (idx.toNat + 1 + 1) * d.N ≤ d.S * d.N := Nat.mul_le_mul_right _ hi2
      have h4 : (d.S - 1) * d.N + d.N = d.S * d.N := by
        obtain ⟨m, hm⟩ : ∃ m, d.S = m + 1 := ⟨d.S - 1, by omega⟩
        rw [hm, Nat.add_sub_cancel]; ring
      rw [Fin.val_last, h4]
      rw [Nat.add_mul, Nat.add_mul, Nat.one_mul] at h3
      omega
  · refine main 0 0 (max w.ocp.tStart w.len) (w.ocp.tStart + w.len) (by omega) ?_ ?_ ?_
    · rw [max_lt_iff]; constructor <;> linarith
    · intro t h1 h2
      have := (le_max_left _ _).trans_lt h1
      push_cast
      constructor <;> linarith
    · intro t h1 h2 idx hidx j hj
      have hlt : w.len < t := (le_max_right _ _).trans_lt h1
      have hf : 1 ≤ ⌊t / w.len⌋ := by
        rw [Int.le_floor]; push_cast; exact (le_div_iff₀ hlen).2 (by linarith)
      have hi := hsegs t idx hidx
      have hi2 : 1 ≤ idx.toNat := by omega
      have hi3 : idx.toNat < d.S := by omega
      rw [hs.nps, col_start d hi3]
      have : 1 * d.N ≤ idx.toNat * d.N := Nat.mul_le_mul_right _ hi2
      simp only [Nat.zero_mul, Fin.val_zero]
      omega

/-- **C85.** Changing the horizon of the problem behind the wrapper, through `ocp()` or `solver()`, leaves the wrapper's time grid as it was:
for the trajectory whose state equals the node time, the value at the new end of the horizon is the new end time, although the state at the
last node is the old end time. -/
theorem stale_grid {A : Approx ℝ} (hA : GoodNodes d.N A) (hS : d.S < 2 ^ 31) (hS1 : 1 ≤ d.S) (hx : 1 ≤ d.NX) {w : Wrap d ℝ}
    (hw : Reachable A w) (ht : w.ocp.tStart < w.ocp.tStop) (h0 : w.ocp.tStart = 0) {tf : ℝ} (htf : w.ocp.tStop < tf) (hfit : tf < 2 ^ 31 * w.len) :
    ∃ v, let w' := ocpSetLimits A (xGuess w v) 0 tf
      w'.ocp.time 0 = tf ∧ solutionXAtTime w' tf ⟨0, hx⟩ = some tf ∧ solutionXAt w' ((d.S * d.N : ℕ) : ℤ) 0 = some w.ocp.tStop := by
  have hs := reachable_synced hw
  have hN := one_le_N hA
  let v : ℕ → ℝ := fun p => w.grid (d.S * d.N - p / d.NX)
  have hcol : ∀ c ≤ d.S * d.N, solutionXReshaped (xGuess w v) 0 c = w.grid c := by
    intro c hc
    have hin : (d.S * d.N - c) * d.NX < d.VARX := by
      rw [varx_eq]
      have : (d.S * d.N - c) * d.NX ≤ d.S * d.N * d.NX := Nat.mul_le_mul_right _ (Nat.sub_le _ _)
      omega
    rw [solutionXReshaped, nn_eq]
    show setSeg w.x 0 d.VARX v _ = _
    rw [setSeg, if_pos ⟨by omega, by omega⟩]
    show w.grid (d.S * d.N - ((d.S * d.N - c) * d.NX + 0 - 0) / d.NX) = _
    rw [Nat.add_zero, Nat.sub_zero, Nat.mul_div_cancel _ hx]
    congr 1; omega
  have hw' : Reachable A (xGuess w v) := by
    obtain ⟨w0, o, t0, t1, cs, h1, h2⟩ := hw
    refine ⟨w0, o, t0, t1, cs ++ [.xGuess v], h1, ?_⟩
    rw [h2]; unfold run; rw [List.foldl_append]; rfl
  have hs' := reachable_synced hw'
  have hSp : (0 : ℝ) < d.S := by exact_mod_cast hS1
  have hlen : 0 < w.len := by rw [hs.len]; exact div_pos (sub_pos.2 ht) hSp
  have e : w.ocp.tStop = d.S * w.len := by rw [hs.len, h0]; field_simp; ring
  refine ⟨v, ?_, ?_, ?_⟩
  · exact (time_junctions d A hA hS1 _ 0 tf).1
  · have hidx : segIndex (xGuess w v) tf = some ((d.S - 1 : ℕ) : ℤ) := by
      rw [seg_index (w := xGuess w v) hlen (by show -2 ^ 63 * w.len ≤ tf; rw [e] at htf; nlinarith)
        (by show tf < 2 ^ 63 * w.len; nlinarith)]
      congr 1
      have : (d.S : ℤ) ≤ ⌊tf / w.len⌋ := by
        rw [Int.le_floor]; push_cast; exact (le_div_iff₀ hlen).2 (by rw [← e]; exact htf.le)
      show max 0 (min ⌊tf / w.len⌋ _) = _
      omega
    obtain ⟨y, hy, Q, hQd, hQ, hQt⟩ := eval_on hA hs' ht (show d.S - 1 < d.S by omega) hidx (solutionXReshaped (xGuess w v)) (⟨0, hx⟩ : Fin d.NX)
    have hstep : (d.S - 1) * d.N + d.N = d.S * d.N := by
      obtain ⟨m, hm⟩ : ∃ m, d.S = m + 1 := ⟨d.S - 1, by omega⟩
      rw [hm, Nat.add_sub_cancel]; ring
    have hQX : Q = X := by
      have hm := (grid_times hA hS1 hw ht).2.2.2
      refine eq_of_degree_sub_lt_of_eval_finset_eq ((Finset.range (d.N + 1)).image fun j => w.grid ((d.S - 1) * d.N + j)) ?_ ?_
      · rw [Finset.card_image_of_injOn]
        · rw [Finset.card_range]
          refine lt_of_le_of_lt (degree_sub_le _ _) (max_lt ?_ ?_)
          · exact lt_of_le_of_lt degree_le_natDegree (by exact_mod_cast Nat.lt_succ_of_le hQd)
          · rw [degree_X]; exact_mod_cast (by omega : 1 < d.N + 1)
        · intro a ha b hb hab
          have ha := Finset.mem_range.1 ha
          have hb := Finset.mem_range.1 hb
          rcases lt_trichotomy a b with h | h | h
          · exact absurd hab (hm _ _ (by omega) (by omega)).ne
          · exact h
          · exact absurd hab (hm _ _ (by omega) (by omega)).ne'
      · intro z hz
        obtain ⟨j, hj, rfl⟩ := Finset.mem_image.1 hz
        have hj := Finset.mem_range.1 hj
        have := hQ j (by omega)
        simp only at this
        rw [hcol _ (by omega)] at this
        rw [eval_X]; exact this
    show evalSeg (xGuess w v) d.NX (solutionXReshaped (xGuess w v)) tf ⟨0, hx⟩ = some tf
    rw [hy, ← hQt, hQX, eval_X]
  · have h := x_at (xGuess w v) (Fin.last _) ⟨0, hx⟩
    have h2 := hcol (d.S * d.N) le_rfl
    have h3 : solutionXReshaped (xGuess w v) 0 (d.S * d.N) = (abs (xGuess w v)).x (Fin.last _) ⟨0, hx⟩ := h.2.1
    have h4 : solutionXAt (xGuess w v) ((d.S * d.N : ℕ) : ℤ) 0 = some ((abs (xGuess w v)).x (Fin.last _) ⟨0, hx⟩) := h.1
    show solutionXAt (xGuess w v) ((d.S * d.N : ℕ) : ℤ) 0 = _
    rw [h4, ← h3, h2]
    exact congrArg some (grid_times hA hS1 hw ht).2.2.1

/-- **C48.** After `initial_conditions(x0)`, whatever other calls and solves follow, a solution within its bounds has `x0` as state at node
`0`, and with a horizon from zero also at time zero. -/
theorem initial_state {A : Approx ℝ} (hA : GoodNodes d.N A) (hS : d.S < 2 ^ 31) (hS1 : 1 ≤ d.S) {w : Wrap d ℝ} (hw : Reachable A w) (x0 : ℕ → ℝ)
    (cs : List (Call d ℝ)) (hcs : ∀ c ∈ cs, ¬ SetsInitial c) (i : Fin d.NX)
    (hb : ∀ j i, (abs (run A (initialConditions w x0) cs)).xlb j i ≤ (abs (run A (initialConditions w x0) cs)).x j i ∧
      (abs (run A (initialConditions w x0) cs)).x j i ≤ (abs (run A (initialConditions w x0) cs)).xub j i) :
    solutionXAt (run A (initialConditions w x0) cs) 0 i = some (x0 i) ∧
    ((run A (initialConditions w x0) cs).ocp.tStart = 0 → 0 < (run A (initialConditions w x0) cs).ocp.tStop →
      solutionXAtTime (run A (initialConditions w x0) cs) 0 i = some (x0 i)) := by
  have hk := initial_kept A (initialConditions w x0) cs hcs
  have hd := step_does A w (.initialConditions x0)
  simp only [Does] at hd
  have hw2 : Reachable A (run A (initialConditions w x0) cs) := by
    obtain ⟨w0, o, t0, t1, cs0, h1, h2⟩ := hw
    refine ⟨w0, o, t0, t1, cs0 ++ .initialConditions x0 :: cs, h1, ?_⟩
    rw [h2]; unfold run; rw [List.foldl_append]; rfl
  have hl : (abs (run A (initialConditions w x0) cs)).xlb 0 i = x0 i := by
    rw [hk.1]; show (abs (step A w (.initialConditions x0))).xlb 0 i = _
    rw [hd]; simp [atNode]
  have hu : (abs (run A (initialConditions w x0) cs)).xub 0 i = x0 i := by
    rw [hk.2]; show (abs (step A w (.initialConditions x0))).xub 0 i = _
    rw [hd]; simp [atNode]
  generalize run A (initialConditions w x0) cs = w2 at *
  have hx := x_at w2 0 i
  have h0 := hb 0 i
  rw [hl, hu] at h0
  have hx0 : solutionXAt w2 0 i = some (x0 i) := by
    have h1 : solutionXAt w2 0 i = some ((abs w2).x 0 i) := hx.1
    rw [h1, le_antisymm h0.2 h0.1]
  refine ⟨hx0, fun h1 h2 => ?_⟩
  have h3 := x_at_node_time hA hS hS1 hw2 (by rw [h1]; exact h2) h1 0 i
  have h4 := (grid_times hA hS1 hw2 (by rw [h1]; exact h2)).2.1
  have e0 : w2.grid ((0 : Fin (d.S * d.N + 1)).val) = 0 := by rw [Fin.val_zero, h4, h1]
  rw [e0] at h3
  rw [h3]; exact hx0

/-! ### Non-vacuity -/

/-- A wrapper over two segments of order two, two states, one control, one parameter. -/
noncomputable def demo : Wrap ⟨2, 1, 1, 1, 2, 2⟩ ℝ :=
  let o : Obj ⟨2, 1, 1, 1, 2, 2⟩ ℝ := ⟨0, 1, fun _ => 0, fun _ => ⟨0, fun _ => 0⟩, fun _ => ⟨0, fun _ => 0⟩, ⟨0, fun _ => 0⟩, ⟨⟨0, fun _ => 0⟩, fun _ => ⟨0, fun _ => 0⟩⟩⟩
  construct ⟨fun _ => -1, fun _ => 1, fun _ => -1, fun _ => 1, fun _ => 0, fun _ => 0, fun _ => 0,
    setTimeLimits _ (chebApprox 2) o 0 1, fun _ => 0, fun _ => 0, none, 1, 1⟩

theorem demo_reachable : Reachable (chebApprox 2) demo := ⟨_, _, 0, 1, [], rfl, rfl⟩

example : demo.ocp.tStart < demo.ocp.tStop ∧ demo.ocp.tStart = 0 ∧ GoodNodes 2 (chebApprox 2) :=
  ⟨zero_lt_one, rfl, cheb_good (by norm_num)⟩

/-- The hypotheses of `x_at_time`. -/
example (i : Fin 2) : ∃ y, solutionXAtTime demo (3 / 4) i = some y := by
  obtain ⟨y, hy, -⟩ := x_at_time (cheb_good (by norm_num)) (by norm_num) demo_reachable zero_lt_one rfl
    (s := 1) (t := 3 / 4) ⟨by norm_num, by show (0 : ℝ) + (1 : ℕ) * ((1 - 0) / (2 : ℕ)) ≤ 3 / 4; norm_num,
      Or.inr ⟨rfl, by show (3 / 4 : ℝ) ≤ 1; norm_num⟩⟩ i
  exact ⟨y, hy⟩

/-- The hypotheses of `x_at_time_shifted`. -/
example : ∃ (v : ℕ → ℝ) (s : ℕ) (t y : ℝ), InSegment ⟨2, 1, 1, 1, 2, 2⟩ 1 2 s t ∧
    solutionXAtTime (xGuess (setLimits (chebApprox 2) demo 1 2) v) t ⟨0, by norm_num⟩ ≠ some y := by
  have hw : Reachable (chebApprox 2) (setLimits (chebApprox 2) demo 1 2) := ⟨_, _, 0, 1, [.setTimeLimits 1 2], rfl, rfl⟩
  obtain ⟨v, s, t, y, h1, -, h3⟩ := x_at_time_shifted (cheb_good (by norm_num)) (by norm_num) (by norm_num) hw
    (by show (1 : ℝ) < 2; norm_num) (by show (1 : ℝ) ≠ 0; norm_num)
  exact ⟨v, s, t, y, h1, h3⟩

/-- The hypotheses of `initial_state`: bounds, guess and a solve that returns the lower bounds. -/
example : solutionXAt (run (chebApprox 2) (initialConditions demo fun i => i)
    [.stateBounds (fun _ => -1) fun _ => 1, .solve fun w => (w.lbx, w.lam)]) 0 1 = some 1 := by
  have h := (initial_state (d := ⟨2, 1, 1, 1, 2, 2⟩) (cheb_good (by norm_num)) (by norm_num) (by norm_num) demo_reachable (fun i => (i : ℝ))
    [.stateBounds (fun _ => -1) fun _ => 1, .solve fun w => (w.lbx, w.lam)] (by simp [SetsInitial]) 1 ?_).1
  · simpa using h
  · intro j i
    refine ⟨le_rfl, ?_⟩
    have h1 : ∀ p, setSeg (setSeg demo.lbx (10 - 2) 2 fun i => (i : ℝ)) 0 (10 - 2) (replicate 2 fun _ => -1) p
        ≤ setSeg (setSeg demo.ubx (10 - 2) 2 fun i => (i : ℝ)) 0 (10 - 2) (replicate 2 fun _ => 1) p := by
      intro p
      unfold setSeg replicate
      split_ifs
      · norm_num
      · exact le_rfl
      · show (-1 : ℝ) ≤ 1; norm_num
    show states _ _ j i ≤ states _ _ j i
    rw [states_apply, states_apply]
    exact h1 _

end Times
end PolyMPC.Mpc
