import Verif.Model.MpcInf
import Verif.Props.MpcSqp
import Verif.Props.SqpInf

/-!
# The MPC wrapper with infinite limits (C219)
-/

set_option linter.unusedSectionVars false
set_option linter.unusedVariables false

namespace PolyMPC.MpcInf
open Ocp Mpc MpcSqp Spec
open Polynomial hiding ext
open SqpInf (Same Agree)

variable {d : Dims} {prec : Sqp.Precond ℝ d.VAR (d.NEQ + d.NINEQ)} {qps : Sqp.QPSolver ℝ d.VAR (d.NEQ + d.NINEQ)}

/-! ## The setters -/

/-- The limits in the wrapper. -/
def limits (w : Wrap d) : LimitsInf (d.S * d.N) d.NX d.NU d.NP d.NG ℝ where
  xlb := states d w.lbx
  xub := states d w.ubx
  ulb := controls d w.lbx
  uub := controls d w.ubx
  plb := params d w.lbx
  pub := params d w.ubx
  glb := paths d w.lbg
  gub := paths d w.ubg

/-- What each call should do to the limits. -/
def DoesInf (a : LimitsInf (d.S * d.N) d.NX d.NU d.NP d.NG ℝ) : Call → LimitsInf (d.S * d.N) d.NX d.NU d.NP d.NG ℝ
  | .initialConditions x0 => { a with xlb := atNode a.xlb 0 fun i => x0 i, xub := atNode a.xub 0 fun i => x0 i }
  | .initialBounds lb ub => { a with xlb := atNode a.xlb 0 lb, xub := atNode a.xub 0 ub }
  | .xLowerBound lb => { a with xlb := afterFirst a.xlb lb }
  | .xUpperBound ub => { a with xub := afterFirst a.xub ub }
  | .stateBounds lb ub => { a with xlb := afterFirst a.xlb lb, xub := afterFirst a.xub ub }
  | .stateTrajectoryBounds lb ub => { a with xlb := backwards lb, xub := backwards ub }
  | .xFinalLowerBound lb => { a with xlb := atNode a.xlb (Fin.last _) lb }
  | .xFinalUpperBound ub => { a with xub := atNode a.xub (Fin.last _) ub }
  | .finalStateBounds lb ub => { a with xlb := atNode a.xlb (Fin.last _) lb, xub := atNode a.xub (Fin.last _) ub }
  | .uLowerBound lb => { a with ulb := everywhere lb }
  | .uUpperBound ub => { a with uub := everywhere ub }
  | .controlBounds lb ub => { a with ulb := everywhere lb, uub := everywhere ub }
  | .controlTrajectoryBounds lb ub => { a with ulb := backwards lb, uub := backwards ub }
  | .constraintsBounds lb ub => { a with glb := everywhere lb, gub := everywhere ub }
  | .constraintsTrajectoryBounds lb ub => { a with glb := backwards lb, gub := backwards ub }
  | .parametersBounds lb ub => { a with plb := fun i => lb i, pub := fun i => ub i }
  | _ => a

/-- **C219.** A new wrapper has no limits. -/
theorem construct_limits (w0 : Mpc.Wrap d ℝ) : limits (construct w0) = ⟨fun _ _ => ⊥, fun _ _ => ⊤, fun _ _ => ⊥, fun _ _ => ⊤, fun _ => ⊥, fun _ => ⊤, fun _ _ => ⊥, fun _ _ => ⊤⟩ := by
  have n {K : Type} (c : K) (k : ℕ) (i : Fin d.M) : node d (fun _ => c) k i = c := by unfold node; split_ifs <;> rfl
  simp only [limits, construct, LimitsInf.mk.injEq]
  exact ⟨funext fun _ => funext fun _ => n _ _ _, funext fun _ => funext fun _ => n _ _ _, funext fun _ => funext fun _ => n _ _ _,
    funext fun _ => funext fun _ => n _ _ _, funext fun _ => n _ _ _, funext fun _ => n _ _ _, rfl, rfl⟩

/-- **C219.** Every call changes exactly the limits that it names, also if they are infinite. -/
theorem step_limits (A : Approx ℝ) (w : Wrap d) (c : Call) : limits (step A w c) = DoesInf (limits w) c := by
  have hx := nx_le d
  have ht := var_tail d
  have f1 : ∀ {K : Type} (v w : ℕ → K), controls d (setSeg v (d.VARX - d.NX) d.NX w) = controls d v := fun v w => controls_low v w (by omega)
  have f2 : ∀ {K : Type} (v w : ℕ → K), controls d (setSeg v 0 (d.VARX - d.NX) w) = controls d v := fun v w => controls_low v w (by omega)
  have f3 : ∀ {K : Type} (v w : ℕ → K), controls d (setSeg v 0 d.VARX w) = controls d v := fun v w => controls_low v w (by omega)
  have f4 : ∀ {K : Type} (v w : ℕ → K), controls d (setSeg v 0 d.NX w) = controls d v := fun v w => controls_low v w (by omega)
  have f5 : ∀ {K : Type} (v w : ℕ → K), controls d (setSeg v (d.VAR - d.NP) d.NP w) = controls d v := fun v w => controls_high v w (by omega)
  have g1 : ∀ {K : Type} (v w : ℕ → K), params d (setSeg v (d.VARX - d.NX) d.NX w) = params d v := fun v w => params_low v w (by omega)
  have g2 : ∀ {K : Type} (v w : ℕ → K), params d (setSeg v 0 (d.VARX - d.NX) w) = params d v := fun v w => params_low v w (by omega)
  have g3 : ∀ {K : Type} (v w : ℕ → K), params d (setSeg v 0 d.VARX w) = params d v := fun v w => params_low v w (by omega)
  have g4 : ∀ {K : Type} (v w : ℕ → K), params d (setSeg v 0 d.NX w) = params d v := fun v w => params_low v w (by omega)
  have g5 : ∀ {K : Type} (v w : ℕ → K), params d (setSeg v d.VARX d.VARU w) = params d v := fun v w => params_low v w (by omega)
  have h1 : ∀ {K : Type} (v w : ℕ → K), states d (setSeg v d.VARX d.VARU w) = states d v := fun v w => states_off v w (by omega)
  have h2 : ∀ {K : Type} (v w : ℕ → K), states d (setSeg v (d.VAR - d.NP) d.NP w) = states d v := fun v w => states_off v w (by omega)
  cases c
  all_goals
    simp only [DoesInf, step, limits, states_head, states_first, states_last, states_after, controls_seg, paths_seg, params_seg, backwards_rep,
      f1, f2, f3, f4, f5, g1, g2, g3, g4, g5, h1, h2]

/-! ## Sessions with infinite limits are sessions with large limits -/

/-- `l` is `lb` with every `-∞` replaced by some number of at most `-B`. -/
def Lower (B : ℝ) (lb : ℕ → WithBot ℝ) (l : ℕ → ℝ) : Prop := ∀ i, LowerApprox B (lb i) (l i)
/-- `u` is `ub` with every `∞` replaced by some number of at least `B`. -/
def Upper (B : ℝ) (ub : ℕ → WithTop ℝ) (u : ℕ → ℝ) : Prop := ∀ i, UpperApprox B (ub i) (u i)

/-- Two wrappers with the same data except the bounds. -/
structure Rest (w w' : Mpc.Wrap d ℝ) : Prop where
  x : w'.x = w.x
  lam : w'.lam = w.lam
  par : w'.par = w.par
  ocp : w'.ocp = w.ocp
  grid : w'.grid = w.grid
  nodes : w'.nodes = w.nodes
  basis : w'.basis = w.basis
  len : w'.len = w.len
  nps : w'.nps = w.nps

/-- `w` is `wI` with the infinite bounds replaced by numbers of modulus at least `B`. -/
structure WrapApprox (B : ℝ) (wI : Wrap d) (w : Mpc.Wrap d ℝ) : Prop where
  lbx : Lower B wI.lbx w.lbx
  ubx : Upper B wI.ubx w.ubx
  lbg : Lower B wI.lbg w.lbg
  ubg : Upper B wI.ubg w.ubg
  rest : Rest wI.w w

/-- The same call, with the infinite bounds among its arguments replaced by numbers of modulus at least `B`. -/
inductive CallApprox (B : ℝ) : Call → Mpc.Call d ℝ → Prop
  | initialConditions (x0) : CallApprox B (.initialConditions x0) (.initialConditions x0)
  | initialBounds {lb ub l u} : Lower B lb l → Upper B ub u → CallApprox B (.initialBounds lb ub) (.initialBounds l u)
  | xLowerBound {lb l} : Lower B lb l → CallApprox B (.xLowerBound lb) (.xLowerBound l)
  | xUpperBound {ub u} : Upper B ub u → CallApprox B (.xUpperBound ub) (.xUpperBound u)
  | stateBounds {lb ub l u} : Lower B lb l → Upper B ub u → CallApprox B (.stateBounds lb ub) (.stateBounds l u)
  | stateTrajectoryBounds {lb ub l u} : Lower B lb l → Upper B ub u → CallApprox B (.stateTrajectoryBounds lb ub) (.stateTrajectoryBounds l u)
  | xFinalLowerBound {lb l} : Lower B lb l → CallApprox B (.xFinalLowerBound lb) (.xFinalLowerBound l)
  | xFinalUpperBound {ub u} : Upper B ub u → CallApprox B (.xFinalUpperBound ub) (.xFinalUpperBound u)
  | finalStateBounds {lb ub l u} : Lower B lb l → Upper B ub u → CallApprox B (.finalStateBounds lb ub) (.finalStateBounds l u)
  | uLowerBound {lb l} : Lower B lb l → CallApprox B (.uLowerBound lb) (.uLowerBound l)
  | uUpperBound {ub u} : Upper B ub u → CallApprox B (.uUpperBound ub) (.uUpperBound u)
  | controlBounds {lb ub l u} : Lower B lb l → Upper B ub u → CallApprox B (.controlBounds lb ub) (.controlBounds l u)
  | controlTrajectoryBounds {lb ub l u} : Lower B lb l → Upper B ub u → CallApprox B (.controlTrajectoryBounds lb ub) (.controlTrajectoryBounds l u)
  | constraintsBounds {lb ub l u} : Lower B lb l → Upper B ub u → CallApprox B (.constraintsBounds lb ub) (.constraintsBounds l u)
  | constraintsTrajectoryBounds {lb ub l u} : Lower B lb l → Upper B ub u →
      CallApprox B (.constraintsTrajectoryBounds lb ub) (.constraintsTrajectoryBounds l u)
  | parametersBounds {lb ub l u} : Lower B lb l → Upper B ub u → CallApprox B (.parametersBounds lb ub) (.parametersBounds l u)
  | setStaticParameters (p) : CallApprox B (.setStaticParameters p) (.setStaticParameters p)
  | xGuess (v) : CallApprox B (.xGuess v) (.xGuess v)
  | uGuess (v) : CallApprox B (.uGuess v) (.uGuess v)
  | pGuess (v) : CallApprox B (.pGuess v) (.pGuess v)
  | lamGuess (v) : CallApprox B (.lamGuess v) (.lamGuess v)
  | setTimeLimits (t0 tf) : CallApprox B (.setTimeLimits t0 tf) (.setTimeLimits t0 tf)

/-- The same use of the wrapper. -/
inductive OpApprox (B : ℝ) : Op d → FOp d → Prop
  | set {c c'} : CallApprox B c c' → OpApprox B (.set c) (.set c')
  | solve (cfg sc) : OpApprox B (.solve cfg sc) (.solve cfg sc)

theorem Lower.mono {B B' : ℝ} (hB : B ≤ B') {lb : ℕ → WithBot ℝ} {l : ℕ → ℝ} (h : Lower B' lb l) : Lower B lb l := fun i => (h i).mono hB
theorem Upper.mono {B B' : ℝ} (hB : B ≤ B') {ub : ℕ → WithTop ℝ} {u : ℕ → ℝ} (h : Upper B' ub u) : Upper B ub u := fun i => (h i).mono hB

theorem WrapApprox.mono {B B' : ℝ} (hB : B ≤ B') {wI : Wrap d} {w : Mpc.Wrap d ℝ} (h : WrapApprox B' wI w) : WrapApprox B wI w :=
  ⟨h.lbx.mono hB, h.ubx.mono hB, h.lbg.mono hB, h.ubg.mono hB, h.rest⟩

theorem Lower.seg {B : ℝ} {f v : ℕ → WithBot ℝ} {f' v' : ℕ → ℝ} (a n : ℕ) (h : Lower B f f') (h' : Lower B v v') :
    Lower B (setSeg f a n v) (Ocp.setSeg f' a n v') := by
  intro i
  unfold setSeg
  split_ifs
  · exact h' _
  · exact h i
theorem Upper.seg {B : ℝ} {f v : ℕ → WithTop ℝ} {f' v' : ℕ → ℝ} (a n : ℕ) (h : Upper B f f') (h' : Upper B v v') :
    Upper B (setSeg f a n v) (Ocp.setSeg f' a n v') := by
  intro i
  unfold setSeg
  split_ifs
  · exact h' _
  · exact h i
theorem Lower.rep {B : ℝ} {v : ℕ → WithBot ℝ} {v' : ℕ → ℝ} (m : ℕ) (h : Lower B v v') : Lower B (replicate m v) (Mpc.replicate m v') := fun i => h _
theorem Upper.rep {B : ℝ} {v : ℕ → WithTop ℝ} {v' : ℕ → ℝ} (m : ℕ) (h : Upper B v v') : Upper B (replicate m v) (Mpc.replicate m v') := fun i => h _

theorem construct_approx {B : ℝ} {w0 : Mpc.Wrap d ℝ} (h : (∀ i, w0.lbx i ≤ -B) ∧ (∀ i, B ≤ w0.ubx i) ∧ (∀ i, w0.lbg i ≤ -B) ∧ ∀ i, B ≤ w0.ubg i) :
    WrapApprox B (construct w0) (Mpc.construct w0) :=
  ⟨h.1, h.2.1, h.2.2.1, h.2.2.2, ⟨rfl, rfl, rfl, rfl, rfl, rfl, rfl, rfl, rfl⟩⟩

theorem limits_rest (A : Approx ℝ) {w w' : Mpc.Wrap d ℝ} (h : Rest w w') (t0 tf : ℝ) : Rest (setLimits A w t0 tf) (setLimits A w' t0 tf) := by
  have e := h.ocp
  unfold setLimits attach
  simp only [e]
  exact ⟨h.x, h.lam, h.par, rfl, rfl, rfl, rfl, rfl, h.nps⟩

/-- Every setter treats infinite bounds as the numbers that replace them. -/
theorem step_approx (A : Approx ℝ) {B : ℝ} {wI : Wrap d} {w : Mpc.Wrap d ℝ} (h : WrapApprox B wI w) {c : Call} {c' : Mpc.Call d ℝ} (hc : CallApprox B c c') :
    WrapApprox B (step A wI c) (Mpc.step A w c') := by
  obtain ⟨h1, h2, h3, h4, h5⟩ := h
  cases hc with
  | initialConditions x0 =>
    exact ⟨h1.seg _ _ (v := fun i => (x0 i : WithBot ℝ)) fun _ => rfl, h2.seg _ _ (v := fun i => (x0 i : WithTop ℝ)) fun _ => rfl, h3, h4,
      ⟨h5.x, h5.lam, h5.par, h5.ocp, h5.grid, h5.nodes, h5.basis, h5.len, h5.nps⟩⟩
  | initialBounds a b => exact ⟨h1.seg _ _ a, h2.seg _ _ b, h3, h4, ⟨h5.x, h5.lam, h5.par, h5.ocp, h5.grid, h5.nodes, h5.basis, h5.len, h5.nps⟩⟩
  | xLowerBound a => exact ⟨h1.seg _ _ (a.rep _), h2, h3, h4, ⟨h5.x, h5.lam, h5.par, h5.ocp, h5.grid, h5.nodes, h5.basis, h5.len, h5.nps⟩⟩
  | xUpperBound b => exact ⟨h1, h2.seg _ _ (b.rep _), h3, h4, ⟨h5.x, h5.lam, h5.par, h5.ocp, h5.grid, h5.nodes, h5.basis, h5.len, h5.nps⟩⟩
  | stateBounds a b =>
    exact ⟨h1.seg _ _ (a.rep _), h2.seg _ _ (b.rep _), h3, h4, ⟨h5.x, h5.lam, h5.par, h5.ocp, h5.grid, h5.nodes, h5.basis, h5.len, h5.nps⟩⟩
  | stateTrajectoryBounds a b => exact ⟨h1.seg _ _ a, h2.seg _ _ b, h3, h4, ⟨h5.x, h5.lam, h5.par, h5.ocp, h5.grid, h5.nodes, h5.basis, h5.len, h5.nps⟩⟩
  | xFinalLowerBound a => exact ⟨h1.seg _ _ a, h2, h3, h4, ⟨h5.x, h5.lam, h5.par, h5.ocp, h5.grid, h5.nodes, h5.basis, h5.len, h5.nps⟩⟩
  | xFinalUpperBound b => exact ⟨h1, h2.seg _ _ b, h3, h4, ⟨h5.x, h5.lam, h5.par, h5.ocp, h5.grid, h5.nodes, h5.basis, h5.len, h5.nps⟩⟩
  | finalStateBounds a b => exact ⟨h1.seg _ _ a, h2.seg _ _ b, h3, h4, ⟨h5.x, h5.lam, h5.par, h5.ocp, h5.grid, h5.nodes, h5.basis, h5.len, h5.nps⟩⟩
  | uLowerBound a => exact ⟨h1.seg _ _ (a.rep _), h2, h3, h4, ⟨h5.x, h5.lam, h5.par, h5.ocp, h5.grid, h5.nodes, h5.basis, h5.len, h5.nps⟩⟩
  | uUpperBound b => exact ⟨h1, h2.seg _ _ (b.rep _), h3, h4, ⟨h5.x, h5.lam, h5.par, h5.ocp, h5.grid, h5.nodes, h5.basis, h5.len, h5.nps⟩⟩
  | controlBounds a b =>
    exact ⟨h1.seg _ _ (a.rep _), h2.seg _ _ (b.rep _), h3, h4, ⟨h5.x, h5.lam, h5.par, h5.ocp, h5.grid, h5.nodes, h5.basis, h5.len, h5.nps⟩⟩
  | controlTrajectoryBounds a b => exact ⟨h1.seg _ _ a, h2.seg _ _ b, h3, h4, ⟨h5.x, h5.lam, h5.par, h5.ocp, h5.grid, h5.nodes, h5.basis, h5.len, h5.nps⟩⟩
  | constraintsBounds a b =>
    exact ⟨h1, h2, h3.seg _ _ (a.rep _), h4.seg _ _ (b.rep _), ⟨h5.x, h5.lam, h5.par, h5.ocp, h5.grid, h5.nodes, h5.basis, h5.len, h5.nps⟩⟩
  | constraintsTrajectoryBounds a b => exact ⟨h1, h2, h3.seg _ _ a, h4.seg _ _ b, ⟨h5.x, h5.lam, h5.par, h5.ocp, h5.grid, h5.nodes, h5.basis, h5.len, h5.nps⟩⟩
  | parametersBounds a b => exact ⟨h1.seg _ _ a, h2.seg _ _ b, h3, h4, ⟨h5.x, h5.lam, h5.par, h5.ocp, h5.grid, h5.nodes, h5.basis, h5.len, h5.nps⟩⟩
  | setStaticParameters p => exact ⟨h1, h2, h3, h4, ⟨h5.x, h5.lam, rfl, h5.ocp, h5.grid, h5.nodes, h5.basis, h5.len, h5.nps⟩⟩
  | xGuess v =>
    exact ⟨h1, h2, h3, h4, ⟨congrArg (fun x => Ocp.setSeg x 0 d.VARX v) h5.x, h5.lam, h5.par, h5.ocp, h5.grid, h5.nodes, h5.basis, h5.len, h5.nps⟩⟩
  | uGuess v =>
    exact ⟨h1, h2, h3, h4, ⟨congrArg (fun x => Ocp.setSeg x d.VARX d.VARU v) h5.x, h5.lam, h5.par, h5.ocp, h5.grid, h5.nodes, h5.basis, h5.len, h5.nps⟩⟩
  | pGuess v =>
    exact ⟨h1, h2, h3, h4, ⟨congrArg (fun x => Ocp.setSeg x (d.VAR - d.NP) d.NP v) h5.x, h5.lam, h5.par, h5.ocp, h5.grid, h5.nodes, h5.basis, h5.len, h5.nps⟩⟩
  | lamGuess v => exact ⟨h1, h2, h3, h4, ⟨h5.x, rfl, h5.par, h5.ocp, h5.grid, h5.nodes, h5.basis, h5.len, h5.nps⟩⟩
  | setTimeLimits t0 tf => exact ⟨h1, h2, h3, h4, limits_rest A h5 t0 tf⟩

theorem bounds_approx {B : ℝ} {wI : Wrap d} {w : Mpc.Wrap d ℝ} (h : WrapApprox B wI w) : (bounds wI).Approx B (MpcSqp.bounds w) :=
  ⟨fun i => h.lbx i, fun i => h.ubx i, fun i => h.lbg i, fun i => h.ubg i⟩

theorem start_same {B : ℝ} {wI : Wrap d} {w : Mpc.Wrap d ℝ} (h : WrapApprox B wI w) {sI : SqpInf.State ℝ d.VAR d.NEQ d.NINEQ prec qps}
    {s : Sqp.State ℝ d.VAR d.NEQ d.NINEQ prec qps} (hs : Same sI s) : Same (start wI sI) (MpcSqp.start w s) :=
  { hs with
    x := funext fun i => congrFun h.rest.x i
    lam := congrArg (toDual d) h.rest.lam }

theorem finish_approx {B : ℝ} {wI : Wrap d} {w : Mpc.Wrap d ℝ} (h : WrapApprox B wI w) {rI : SqpInf.State ℝ d.VAR d.NEQ d.NINEQ prec qps}
    {r : Sqp.State ℝ d.VAR d.NEQ d.NINEQ prec qps} (hr : Same rI r) : WrapApprox B (finish wI rI) (MpcSqp.finish w r) :=
  ⟨h.lbx, h.ubx, h.lbg, h.ubg, ⟨congrArg ext hr.x, congrArg ofDual hr.lam, h.rest.par, h.rest.ocp, h.rest.grid, h.rest.nodes, h.rest.basis, h.rest.len, h.rest.nps⟩⟩

theorem problem_rest (P : Program d) {w w' : Mpc.Wrap d ℝ} (h : Rest w w') (sc : Scratch d) : P.problem w' sc = P.problem w sc := by
  unfold Program.problem
  rw [h.par, h.ocp]

/-- Both sessions fail, or both return with the same data, multipliers, status, counts and norms. -/
def SessionAgree (B : ℝ) (rI : Option (Wrap d × SqpInf.State ℝ d.VAR d.NEQ d.NINEQ prec qps)) (r : Option (Mpc.Wrap d ℝ × Sqp.State ℝ d.VAR d.NEQ d.NINEQ prec qps)) : Prop :=
  match rI, r with
  | none, none => True
  | some a, some b => WrapApprox B a.1 b.1 ∧ Same a.2 b.2
  | _, _ => False

theorem SessionAgree.mono {B B' : ℝ} (hB : B ≤ B') {rI : Option (Wrap d × SqpInf.State ℝ d.VAR d.NEQ d.NINEQ prec qps)}
    {r : Option (Mpc.Wrap d ℝ × Sqp.State ℝ d.VAR d.NEQ d.NINEQ prec qps)} (h : SessionAgree B' rI r) : SessionAgree B rI r := by
  cases rI <;> cases r
  · trivial
  · exact h.elim
  · exact h.elim
  · exact ⟨h.1.mono hB, h.2⟩

theorem CallApprox.mono {B B' : ℝ} (hB : B ≤ B') {c : Call} {c' : Mpc.Call d ℝ} (h : CallApprox B' c c') : CallApprox B c c' := by
  cases h <;> constructor <;> first | exact Lower.mono hB ‹_› | exact Upper.mono hB ‹_›

theorem OpApprox.mono {B B' : ℝ} (hB : B ≤ B') {c : Op d} {c' : FOp d} (h : OpApprox B' c c') : OpApprox B c c' := by
  cases h with
  | set h => exact .set (h.mono hB)
  | solve cfg sc => exact .solve cfg sc

/-- **C219.** Whatever a user does with a wrapper whose limits may be infinite, any numbers of sufficiently large modulus in place of the infinite limits give the same results
in all solves. -/
theorem session_as_finite [NeZero d.VAR] (P : Program d) {pi : SqpInf.PrecondInf prec} {qi : SqpInf.QPSolverInf qps} (hp : pi.Limit) (hq : qi.Limit)
    (wI : Wrap d) (sI : SqpInf.State ℝ d.VAR d.NEQ d.NINEQ prec qps) (ops : List (Op d)) :
    ∃ B0, ∀ B, B0 ≤ B → ∀ w s ops', WrapApprox B wI w → Same sI s → List.Forall₂ (OpApprox B) ops ops' →
      SessionAgree B (session P pi qi wI sI ops) (sessionFin P w s ops') := by
  induction ops generalizing wI sI with
  | nil =>
    refine ⟨0, fun B _ w s ops' hw hs ho => ?_⟩
    cases ho
    exact ⟨hw, hs⟩
  | cons op ops ih =>
    cases op with
    | set c =>
      obtain ⟨B0, hB0⟩ := ih (step P.A wI c) sI
      refine ⟨B0, fun B hB w s ops' hw hs ho => ?_⟩
      cases ho with
      | cons h1 h2 =>
        cases h1 with
        | set hc =>
          unfold session sessionFin
          exact hB0 B hB _ _ _ (step_approx P.A hw hc) hs h2
    | solve cfg sc =>
      obtain ⟨B1, hB1⟩ := SqpInf.solve_as_finite hp hq P.eps cfg (P.problem wI.w sc) (bounds wI) (start wI sI)
      cases hr : SqpInf.solve (SqpInf.defaultEnv P.eps cfg (P.problem wI.w sc) (bounds wI) pi qi) (start wI sI) with
      | none =>
        refine ⟨B1, fun B hB w s ops' hw hs ho => ?_⟩
        cases ho with
        | cons h1 h2 =>
          cases h1
          have e := hB1 _ ((bounds_approx hw).mono hB) _ (start_same hw hs)
          rw [hr] at e
          unfold session sessionFin
          rw [hr, problem_rest P hw.rest]
          cases hf : Sqp.solve (Sqp.defaultEnv P.eps cfg (P.problem wI.w sc) (MpcSqp.bounds w)) (MpcSqp.start w s) with
          | none => trivial
          | some r => rw [hf] at e; exact e.elim
      | some rI =>
        obtain ⟨B2, hB2⟩ := ih (finish wI rI) rI
        refine ⟨max B1 B2, fun B hB w s ops' hw hs ho => ?_⟩
        cases ho with
        | cons h1 h2 =>
          cases h1
          have e := hB1 _ ((bounds_approx hw).mono ((le_max_left _ _).trans hB)) _ (start_same hw hs)
          rw [hr] at e
          unfold session sessionFin
          rw [hr, problem_rest P hw.rest]
          cases hf : Sqp.solve (Sqp.defaultEnv P.eps cfg (P.problem wI.w sc) (MpcSqp.bounds w)) (MpcSqp.start w s) with
          | none => rw [hf] at e; exact e.elim
          | some r =>
            rw [hf] at e
            have e' : Same rI r := e
            exact hB2 B ((le_max_right _ _).trans hB) (MpcSqp.finish w r) r _ (finish_approx hw e') e' h2

/-! ## What SOLVED means when limits are infinite -/

/-- Bounds and calls with the infinite ones replaced by `±B`. -/
noncomputable def cutCall (B : ℝ) : Call → Mpc.Call d ℝ
  | .initialConditions x0 => .initialConditions x0
  | .initialBounds lb ub => .initialBounds (fun i => cutLower B (lb i)) fun i => cutUpper B (ub i)
  | .xLowerBound lb => .xLowerBound fun i => cutLower B (lb i)
  | .xUpperBound ub => .xUpperBound fun i => cutUpper B (ub i)
  | .stateBounds lb ub => .stateBounds (fun i => cutLower B (lb i)) fun i => cutUpper B (ub i)
  | .stateTrajectoryBounds lb ub => .stateTrajectoryBounds (fun i => cutLower B (lb i)) fun i => cutUpper B (ub i)
  | .xFinalLowerBound lb => .xFinalLowerBound fun i => cutLower B (lb i)
  | .xFinalUpperBound ub => .xFinalUpperBound fun i => cutUpper B (ub i)
  | .finalStateBounds lb ub => .finalStateBounds (fun i => cutLower B (lb i)) fun i => cutUpper B (ub i)
  | .uLowerBound lb => .uLowerBound fun i => cutLower B (lb i)
  | .uUpperBound ub => .uUpperBound fun i => cutUpper B (ub i)
  | .controlBounds lb ub => .controlBounds (fun i => cutLower B (lb i)) fun i => cutUpper B (ub i)
  | .controlTrajectoryBounds lb ub => .controlTrajectoryBounds (fun i => cutLower B (lb i)) fun i => cutUpper B (ub i)
  | .constraintsBounds lb ub => .constraintsBounds (fun i => cutLower B (lb i)) fun i => cutUpper B (ub i)
  | .constraintsTrajectoryBounds lb ub => .constraintsTrajectoryBounds (fun i => cutLower B (lb i)) fun i => cutUpper B (ub i)
  | .parametersBounds lb ub => .parametersBounds (fun i => cutLower B (lb i)) fun i => cutUpper B (ub i)
  | .setStaticParameters p => .setStaticParameters p
  | .xGuess v => .xGuess v
  | .uGuess v => .uGuess v
  | .pGuess v => .pGuess v
  | .lamGuess v => .lamGuess v
  | .setTimeLimits t0 tf => .setTimeLimits t0 tf

theorem cutCall_approx (B : ℝ) (c : Call) : CallApprox B c (cutCall (d := d) B c) := by
  have l (lb : ℕ → WithBot ℝ) : Lower B lb fun i => cutLower B (lb i) := fun i => cutLower_approx B _
  have u (ub : ℕ → WithTop ℝ) : Upper B ub fun i => cutUpper B (ub i) := fun i => cutUpper_approx B _
  cases c <;> constructor <;> first | exact l _ | exact u _

noncomputable def cutOp (B : ℝ) : Op d → FOp d
  | .set c => .set (cutCall B c)
  | .solve cfg sc => .solve cfg sc

theorem cutOps_approx (B : ℝ) (ops : List (Op d)) : List.Forall₂ (OpApprox B) ops (ops.map (cutOp B)) := by
  induction ops with
  | nil => exact .nil
  | cons op ops ih =>
    refine .cons ?_ ih
    cases op with
    | set c => exact .set (cutCall_approx B c)
    | solve cfg sc => exact .solve cfg sc

noncomputable def cutWrap (B : ℝ) (wI : Wrap d) : Mpc.Wrap d ℝ :=
  { wI.w with lbx := fun i => cutLower B (wI.lbx i), ubx := fun i => cutUpper B (wI.ubx i), lbg := fun i => cutLower B (wI.lbg i), ubg := fun i => cutUpper B (wI.ubg i) }

theorem cutWrap_approx (B : ℝ) (wI : Wrap d) : WrapApprox B wI (cutWrap B wI) :=
  ⟨fun _ => cutLower_approx B _, fun _ => cutUpper_approx B _, fun _ => cutLower_approx B _, fun _ => cutUpper_approx B _, ⟨rfl, rfl, rfl, rfl, rfl, rfl, rfl, rfl, rfl⟩⟩

/-- A session is a sequence of the calls of C47. -/
theorem session_run [NeZero d.VAR] (P : Program d) {w w' : Mpc.Wrap d ℝ} {s s' : Sqp.State ℝ d.VAR d.NEQ d.NINEQ prec qps} {ops : List (FOp d)}
    (h : sessionFin P w s ops = some (w', s')) :
    ∃ cs : List (Mpc.Call d ℝ), w' = run P.A w cs ∧ ∀ c ∈ cs, .set c ∈ ops ∨ ∃ sol, c = .solve sol := by
  induction ops generalizing w s with
  | nil =>
    obtain ⟨rfl, rfl⟩ : w = w' ∧ s = s' := by
      have := Option.some.inj h
      exact ⟨congrArg Prod.fst this, congrArg Prod.snd this⟩
    exact ⟨[], rfl, fun c hc => by cases hc⟩
  | cons op ops ih =>
    cases op with
    | set c =>
      unfold sessionFin at h
      obtain ⟨cs, h1, h2⟩ := ih h
      refine ⟨c :: cs, h1, fun c' hc' => ?_⟩
      rcases List.mem_cons.1 hc' with rfl | hc'
      · exact Or.inl List.mem_cons_self
      · rcases h2 c' hc' with h | h
        · exact Or.inl (List.mem_cons_of_mem _ h)
        · exact Or.inr h
    | solve cfg sc =>
      unfold sessionFin at h
      rw [Option.bind_eq_some_iff] at h
      obtain ⟨r, -, h⟩ := h
      obtain ⟨cs, h1, h2⟩ := ih h
      refine ⟨.solve (fun _ => (ext r.x, ofDual r.lam)) :: cs, h1, fun c' hc' => ?_⟩
      rcases List.mem_cons.1 hc' with rfl | hc'
      · exact Or.inr ⟨_, rfl⟩
      · rcases h2 c' hc' with h | h
        · exact Or.inl (List.mem_cons_of_mem _ h)
        · exact Or.inr h

/-- Session and last solve with the infinite limits replaced by `±B`. -/
theorem finite_session [NeZero d.VAR] {P : Program d} {pi : SqpInf.PrecondInf prec} {qi : SqpInf.QPSolverInf qps} (hp : pi.Limit) (hq : qi.Limit)
    {wI wJ : Wrap d} {sI sJ rI : SqpInf.State ℝ d.VAR d.NEQ d.NINEQ prec qps} {ops : List (Op d)} (h : session P pi qi wI sI ops = some (wJ, sJ))
    {cfg : Sqp.Settings ℝ} {sc : Scratch d}
    (hr : SqpInf.solve (SqpInf.defaultEnv P.eps cfg (P.problem wJ.w sc) (bounds wJ) pi qi) (start wJ sJ) = some rI) :
    ∃ B w s r, sessionFin P (cutWrap B wI) (SqpInf.toFinite sI) (ops.map (cutOp B)) = some (w, s) ∧ WrapApprox B wJ w ∧
      Sqp.solve (Sqp.defaultEnv P.eps cfg (P.problem w sc) (MpcSqp.bounds w)) (MpcSqp.start w s) = some r ∧ Same rI r := by
  obtain ⟨B1, hB1⟩ := session_as_finite P hp hq wI sI ops
  obtain ⟨B2, hB2⟩ := SqpInf.solve_as_finite hp hq P.eps cfg (P.problem wJ.w sc) (bounds wJ) (start wJ sJ)
  have k := hB1 (max B1 B2) (le_max_left _ _) _ _ _ (cutWrap_approx (max B1 B2) wI) (SqpInf.toFinite_same sI) (cutOps_approx (max B1 B2) ops)
  rw [h] at k
  cases hf : sessionFin P (cutWrap (max B1 B2) wI) (SqpInf.toFinite sI) (ops.map (cutOp (max B1 B2))) with
  | none => rw [hf] at k; exact k.elim
  | some a =>
    rw [hf] at k
    obtain ⟨k1, k2⟩ : WrapApprox (max B1 B2) wJ a.1 ∧ Same sJ a.2 := k
    have e := hB2 _ ((bounds_approx k1).mono (le_max_right _ _)) _ (start_same k1 k2)
    rw [hr, ← problem_rest P k1.rest] at e
    cases hg : Sqp.solve (Sqp.defaultEnv P.eps cfg (P.problem a.1 sc) (MpcSqp.bounds a.1)) (MpcSqp.start a.1 a.2) with
    | none => rw [hg] at e; exact e.elim
    | some r =>
      rw [hg] at e
      exact ⟨max B1 B2, a.1, a.2, r, hf, k1, hg, e⟩

theorem rest_at {w w' : Mpc.Wrap d ℝ} (h : Rest w w') : solutionXAt w' = solutionXAt w := by
  unfold solutionXAt; rw [h.x]
theorem rest_at_time {w w' : Mpc.Wrap d ℝ} (h : Rest w w') : solutionXAtTime w' = solutionXAtTime w := by
  funext t r
  unfold solutionXAtTime evalSeg segIndex solutionXReshaped
  rw [h.x, h.len, h.basis, h.nps]

theorem lower_of {B l v e : ℝ} {lb : WithBot ℝ} (h : LowerApprox B lb l) (hl : l - e ≤ v) : lb ≤ ((v + e : ℝ) : WithBot ℝ) := by
  cases lb with
  | bot => exact bot_le
  | coe b =>
    have h' : l = b := h
    exact WithBot.coe_le_coe.mpr (by linarith)
theorem upper_of {B u v e : ℝ} {ub : WithTop ℝ} (h : UpperApprox B ub u) (hu : v ≤ u + e) : ((v - e : ℝ) : WithTop ℝ) ≤ ub := by
  cases ub with
  | top => exact le_top
  | coe b =>
    have h' : u = b := h
    exact WithTop.coe_le_coe.mpr (by linarith)

theorem Lower.node {B : ℝ} {f : ℕ → WithBot ℝ} {f' : ℕ → ℝ} (h : Lower B f f') (k : ℕ) (i : Fin d.M) : LowerApprox B (node d f k i) (node d f' k i) := by
  unfold Ocp.node
  split_ifs <;> exact h _
theorem Upper.node {B : ℝ} {f : ℕ → WithTop ℝ} {f' : ℕ → ℝ} (h : Upper B f f') (k : ℕ) (i : Fin d.M) : UpperApprox B (node d f k i) (node d f' k i) := by
  unfold Ocp.node
  split_ifs <;> exact h _

/-- **C219.** Let a wrapper be constructed, without limits, and used in any way, with limits that may be infinite, and let its solve end with `SOLVED`. The conclusion is that of C164: the
polynomials through the returned states satisfy the differential equation at the collocation nodes up to `eps_prim`, and path constraints, states, controls and parameters are within the
limits that were set, up to `eps_prim`. -/
theorem solved_trajectory_inf [NeZero d.VAR] {P : Program d} (hA : P.A = chebApprox d.N) (hN : 1 ≤ d.N) (hS : 1 ≤ d.S)
    {pi : SqpInf.PrecondInf prec} {qi : SqpInf.QPSolverInf qps} (hp : pi.Limit) (hq : qi.Limit)
    {w0 : Mpc.Wrap d ℝ} {o : Obj d ℝ} {t0 t1 : ℝ} (h0 : w0.ocp = setTimeLimits d P.A o t0 t1) {w : Wrap d}
    {s0 s r : SqpInf.State ℝ d.VAR d.NEQ d.NINEQ prec qps} {ops : List (Op d)} (h : session P pi qi (construct w0) s0 ops = some (w, s))
    {cb : Cbs d ℝ} (hcb : P.cb w.w.par = cb)
    (hf : ∀ z t old old', ∀ i < d.NX, cb.dyn z t old i = cb.dyn z t old' i) (hg : ∀ z t old old', ∀ i < d.NG, cb.ineq z t old i = cb.ineq z t old' i)
    (ht : w.w.ocp.tStart < w.w.ocp.tStop) {cfg : Sqp.Settings ℝ} {sc : Scratch d}
    (hr : SqpInf.solve (SqpInf.defaultEnv P.eps cfg (P.problem w.w sc) (bounds w) pi qi) (start w s) = some r) (hs : r.status = .SOLVED) :
    (∀ σ < d.S, ∀ i : Fin d.NX, ∃ Q : ℝ[X], Q.natDegree ≤ d.N ∧
      (d.S < 2 ^ 31 → w.w.ocp.tStart = 0 → ∀ t, InSegment d w.w.ocp.tStart w.w.ocp.tStop σ t → solutionXAtTime (finish w r).w t i = some (Q.eval t)) ∧
      (∀ l ≤ d.N, solutionXAt (finish w r).w ((σ * d.N + l : ℕ) : ℤ) i = some (Q.eval (w.w.grid (σ * d.N + l)))) ∧
      ∀ l ≤ d.N, (0 < l ∨ σ = 0) → (w.w.ocp.tStop - w.w.ocp.tStart) / (2 * d.S) *
        |Q.derivative.eval (w.w.grid (σ * d.N + l)) - cb.dyn (point (finish w r).w (σ * d.N + l)) (w.w.grid (σ * d.N + l)) (fun _ => 0) i| ≤ cfg.epsPrim) ∧
    (∀ (k : Fin (d.S * d.N + 1)) (i : Fin d.NG),
      paths d w.lbg k i ≤ ((cb.ineq (point (finish w r).w k) (w.w.grid k) (fun _ => 0) i + cfg.epsPrim : ℝ) : WithBot ℝ) ∧
      ((cb.ineq (point (finish w r).w k) (w.w.grid k) (fun _ => 0) i - cfg.epsPrim : ℝ) : WithTop ℝ) ≤ paths d w.ubg k i) ∧
    (∀ (k : Fin (d.S * d.N + 1)) (i : Fin d.NX), states d w.lbx k i ≤ ((states d (finish w r).w.x k i + cfg.epsPrim : ℝ) : WithBot ℝ) ∧
      ((states d (finish w r).w.x k i - cfg.epsPrim : ℝ) : WithTop ℝ) ≤ states d w.ubx k i) ∧
    (∀ (k : Fin (d.S * d.N + 1)) (i : Fin d.NU), controls d w.lbx k i ≤ ((controls d (finish w r).w.x k i + cfg.epsPrim : ℝ) : WithBot ℝ) ∧
      ((controls d (finish w r).w.x k i - cfg.epsPrim : ℝ) : WithTop ℝ) ≤ controls d w.ubx k i) ∧
    (∀ i : Fin d.NP, params d w.lbx i ≤ ((params d (finish w r).w.x i + cfg.epsPrim : ℝ) : WithBot ℝ) ∧
      ((params d (finish w r).w.x i - cfg.epsPrim : ℝ) : WithTop ℝ) ≤ params d w.ubx i) := by
  obtain ⟨B, wf, sf, rf, e1, e2, e3, e4⟩ := finite_session hp hq h hr
  obtain ⟨cs, hcs, -⟩ := session_run P e1
  have hreach : Reachable (chebApprox d.N) wf := by
    refine ⟨{ w0 with lbx := fun _ => -B, ubx := fun _ => B, lbg := fun _ => -B, ubg := fun _ => B }, o, t0, t1, cs, ?_, ?_⟩
    · rw [← hA]; exact h0
    · rw [← hA, hcs]; rfl
  have hfin := finish_approx e2 e4
  have hx := hfin.rest.x
  have hpt (k : ℕ) : point (MpcSqp.finish wf rf) k = point (finish w r).w k := by unfold point; rw [hx]
  have key := solved_trajectory (env := Sqp.defaultEnv P.eps cfg (P.problem wf sc) (MpcSqp.bounds wf)) hN hS hf hg hreach
    (by rw [e2.rest.ocp]; exact ht) (sc := sc)
    (by show P.problem wf sc = _; unfold Program.problem; rw [e2.rest.par, hcb, hA]) rfl e3 (by rw [e4.status]; exact hs)
  simp only [hpt, rest_at hfin.rest, rest_at_time hfin.rest, e2.rest.ocp, e2.rest.grid] at key
  obtain ⟨k1, k2, k3, k4, k5⟩ := key
  refine ⟨k1, fun k i => ⟨lower_of (e2.lbg _) (k2 k i).1, upper_of (e2.ubg _) (k2 k i).2⟩, fun k i => ?_, fun k i => ?_, fun i => ?_⟩
  · have q := k3 k i
    change states d wf.lbx k i - cfg.epsPrim ≤ states d (MpcSqp.finish wf rf).x k i ∧ states d (MpcSqp.finish wf rf).x k i ≤ states d wf.ubx k i + cfg.epsPrim at q
    rw [hx] at q
    exact ⟨lower_of (e2.lbx.node _ _) q.1, upper_of (e2.ubx.node _ _) q.2⟩
  · have q := k4 k i
    change controls d wf.lbx k i - cfg.epsPrim ≤ controls d (MpcSqp.finish wf rf).x k i ∧ controls d (MpcSqp.finish wf rf).x k i ≤ controls d wf.ubx k i + cfg.epsPrim at q
    rw [hx] at q
    exact ⟨lower_of (e2.lbx.node _ _) q.1, upper_of (e2.ubx.node _ _) q.2⟩
  · have q := k5 i
    change params d wf.lbx i - cfg.epsPrim ≤ params d (MpcSqp.finish wf rf).x i ∧ params d (MpcSqp.finish wf rf).x i ≤ params d wf.ubx i + cfg.epsPrim at q
    rw [hx] at q
    exact ⟨lower_of (e2.lbx.node _ _) q.1, upper_of (e2.ubx.node _ _) q.2⟩

/-- The uses of the wrapper that may change the limits of the initial state. -/
def OpSetsInitial : Op d → Prop
  | .set (.initialConditions _) | .set (.initialBounds _ _) | .set (.stateTrajectoryBounds _ _) => True
  | .set (.xFinalLowerBound _) | .set (.xFinalUpperBound _) | .set (.finalStateBounds _ _) => d.S * d.N = 0
  | _ => False

theorem cut_setsInitial {B : ℝ} {op : Op d} (h : ¬ OpSetsInitial op) {c : Mpc.Call d ℝ} (hc : cutOp B op = .set c) : ¬ SetsInitial c := by
  cases op with
  | solve cfg sc => exact absurd hc (by simp [cutOp])
  | set c0 =>
    obtain rfl : cutCall B c0 = c := by simpa [cutOp] using hc
    cases c0 <;> exact h

/-- **C219.** After `initial_conditions(x0)` and any other uses, a solve that ends with `SOLVED` returns a trajectory that starts at `x0`, up to `eps_prim`; the other limits may be infinite. -/
theorem solved_initial_inf [NeZero d.VAR] {P : Program d} {pi : SqpInf.PrecondInf prec} {qi : SqpInf.QPSolverInf qps} (hp : pi.Limit) (hq : qi.Limit)
    {w1 w : Wrap d} {s1 s r : SqpInf.State ℝ d.VAR d.NEQ d.NINEQ prec qps} (x0 : ℕ → ℝ) {ops : List (Op d)} (hops : ∀ op ∈ ops, ¬ OpSetsInitial op)
    (h : session P pi qi w1 s1 (.set (.initialConditions x0) :: ops) = some (w, s)) {cfg : Sqp.Settings ℝ} {sc : Scratch d}
    (hr : SqpInf.solve (SqpInf.defaultEnv P.eps cfg (P.problem w.w sc) (bounds w) pi qi) (start w s) = some r) (hs : r.status = .SOLVED) (i : Fin d.NX) :
    ∃ y, solutionXAt (finish w r).w 0 i = some y ∧ |y - x0 i| ≤ cfg.epsPrim := by
  obtain ⟨B, wf, sf, rf, e1, e2, e3, e4⟩ := finite_session hp hq h hr
  rw [List.map_cons] at e1
  change sessionFin P (initialConditions (cutWrap B w1) x0) _ _ = _ at e1
  obtain ⟨cs, hcs, hm⟩ := session_run P e1
  have hfin := finish_approx e2 e4
  have key := solved_initial (A := P.A) (w := cutWrap B w1) x0 cs (fun c hc => ?_) (env := Sqp.defaultEnv P.eps cfg (P.problem wf sc) (MpcSqp.bounds wf))
    (s := sf) (r := rf) (by rw [← hcs]; rfl) (by rw [← hcs]; exact e3) (by rw [e4.status]; exact hs) i
  · rw [← hcs, rest_at hfin.rest] at key
    exact key
  · rcases hm c hc with h | ⟨sol, rfl⟩
    · obtain ⟨op, h1, h2⟩ := List.mem_map.1 h
      exact cut_setsInitial (hops op h1) h2
    · exact id

/-- **C219** for the solver with its default QP solver `boxADMM`. -/
theorem box_session_as_finite [NeZero d.VAR] (P : Program d) (both : Bool)
    (lin : BoxAdmm.KktMat ℝ d.VAR (d.NEQ + d.NINEQ) → (BoxAdmm.KktIdx d.VAR (d.NEQ + d.NINEQ) → ℝ) → (BoxAdmm.KktIdx d.VAR (d.NEQ + d.NINEQ) → ℝ)) (sq : ℝ → ℝ)
    (qcfg : QPBase.Settings ℝ) (wI : Wrap d)
    (sI : SqpInf.State ℝ d.VAR d.NEQ d.NINEQ (Sqp.identityPrecond ℝ d.VAR (d.NEQ + d.NINEQ)) (SqpSparse.boxQps both lin sq qcfg)) (ops : List (Op d)) :
    ∃ B0, ∀ B, B0 ≤ B → ∀ w s ops', WrapApprox B wI w → Same sI s → List.Forall₂ (OpApprox B) ops ops' →
      SessionAgree B (session P (SqpInf.identityInf _ _ _) (SqpInf.boxQpsInf both lin sq qcfg) wI sI ops) (sessionFin P w s ops') :=
  session_as_finite P (SqpInf.identity_limit _) (SqpInf.boxQps_limit both lin sq qcfg) wI sI ops

/-! ## Non-vacuity -/

/-- For any problem, limits and start there are admissible settings with which the solver reports SOLVED. -/
theorem some_solved [NeZero d.VAR] (eps : ℝ) (prob : Sqp.Problem ℝ d.VAR d.NEQ d.NINEQ) (bd : SqpInf.Bounds ℝ d.VAR d.NINEQ) (qi : SqpInf.QPSolverInf qps)
    (st : SqpInf.State ℝ d.VAR d.NEQ d.NINEQ (Sqp.identityPrecond ℝ d.VAR (d.NEQ + d.NINEQ)) qps) :
    ∃ cfg : Sqp.Settings ℝ, cfg.validate = true ∧ ∃ r, SqpInf.solve (SqpInf.defaultEnv eps cfg prob bd (SqpInf.identityInf _ _ _) qi) st = some r ∧ r.status = .SOLVED := by
  obtain ⟨E, hE⟩ : ∃ E : ℝ → ℝ → SqpInf.Env ℝ d.VAR d.NEQ d.NINEQ (Sqp.identityPrecond ℝ d.VAR (d.NEQ + d.NINEQ)) qps, E = fun e e' =>
      SqpInf.defaultEnv eps { (Sqp.Settings.default : Sqp.Settings ℝ) with epsPrim := e, epsDual := e' } prob bd (SqpInf.identityInf _ _ _) qi := ⟨_, rfl⟩
  obtain ⟨s, hs⟩ : ∃ s, SqpInf.qpStep (E 1 1) (SqpInf.linearise (E 1 1) (SqpInf.start st)) = some s := by
    rw [hE]
    exact ⟨_, rfl⟩
  have hany (e e' : ℝ) : SqpInf.qpStep (E e e') (SqpInf.linearise (E e e') (SqpInf.start st)) = some s := by
    rw [← hs, hE]; rfl
  obtain ⟨e, he⟩ : ∃ e, e = max 1 (max s.primalNorm (SqpInf.measure (E 1 1) s).maxViolation) := ⟨_, rfl⟩
  obtain ⟨e', he'⟩ : ∃ e', e' = max 1 s.dualNorm := ⟨_, rfl⟩
  have p1 : 0 < e := lt_of_lt_of_le one_pos (by rw [he]; exact le_max_left _ _)
  have p2 : 0 < e' := lt_of_lt_of_le one_pos (by rw [he']; exact le_max_left _ _)
  have t : SqpInf.terminated (E e e') (SqpInf.measure (E e e') s) = true := by
    simp only [SqpInf.terminated, Bool.and_eq_true, decide_eq_true_eq]
    have c1 : (E e e').cfg.epsPrim = e := by rw [hE]; rfl
    have c2 : (E e e').cfg.epsDual = e' := by rw [hE]; rfl
    have c3 : (SqpInf.measure (E e e') s).maxViolation = (SqpInf.measure (E 1 1) s).maxViolation := by rw [hE]; rfl
    rw [c1, c2, c3]
    refine ⟨⟨?_, ?_⟩, ?_⟩
    · change s.primalNorm ≤ e
      rw [he]; exact (le_max_left _ _).trans (le_max_right _ _)
    · change s.dualNorm ≤ e'
      rw [he']; exact le_max_right _ _
    · rw [he]; exact (le_max_right _ _).trans (le_max_right _ _)
  refine ⟨{ (Sqp.Settings.default : Sqp.Settings ℝ) with epsPrim := e, epsDual := e' }, ?_, { SqpInf.measure (E e e') s with status := .SOLVED }, ?_, rfl⟩
  · simp only [Sqp.Settings.validate, Sqp.Settings.default, Bool.and_eq_true, decide_eq_true_eq]
    refine ⟨⟨⟨⟨⟨⟨⟨⟨⟨?_, ?_⟩, ?_⟩, ?_⟩, ?_⟩, ?_⟩, p1⟩, p2⟩, ?_⟩, ?_⟩ <;> norm_num
  · have hr : SqpInf.solve (E e e') st = some { SqpInf.measure (E e e') s with status := .SOLVED } := by
      unfold SqpInf.solve
      change (SqpInf.qpStep (E e e') (SqpInf.linearise (E e e') (SqpInf.start st))).bind _ = _
      rw [hany]
      simp only [Option.bind_some]
      rw [if_pos t]
    rw [hE] at hr
    rw [hE]
    exact hr

/-- A session with two solves: only the initial state and an upper limit of the control are set. -/
example (P : Program ⟨2, 1, 1, 1, 2, 2⟩) (both : Bool)
    (lin : BoxAdmm.KktMat ℝ (Dims.VAR ⟨2, 1, 1, 1, 2, 2⟩) (Dims.NEQ ⟨2, 1, 1, 1, 2, 2⟩ + Dims.NINEQ ⟨2, 1, 1, 1, 2, 2⟩) →
      (BoxAdmm.KktIdx (Dims.VAR ⟨2, 1, 1, 1, 2, 2⟩) (Dims.NEQ ⟨2, 1, 1, 1, 2, 2⟩ + Dims.NINEQ ⟨2, 1, 1, 1, 2, 2⟩) → ℝ) →
      (BoxAdmm.KktIdx (Dims.VAR ⟨2, 1, 1, 1, 2, 2⟩) (Dims.NEQ ⟨2, 1, 1, 1, 2, 2⟩ + Dims.NINEQ ⟨2, 1, 1, 1, 2, 2⟩) → ℝ)) (sq : ℝ → ℝ) (qcfg : QPBase.Settings ℝ)
    (s0 : SqpInf.State ℝ (Dims.VAR ⟨2, 1, 1, 1, 2, 2⟩) (Dims.NEQ ⟨2, 1, 1, 1, 2, 2⟩) (Dims.NINEQ ⟨2, 1, 1, 1, 2, 2⟩) (Sqp.identityPrecond ℝ _ _) (SqpSparse.boxQps both lin sq qcfg))
    (sc : Scratch ⟨2, 1, 1, 1, 2, 2⟩) :
    haveI : NeZero (Dims.VAR ⟨2, 1, 1, 1, 2, 2⟩) := ⟨by decide⟩
    ∃ cfg cfg' w s r, session P (SqpInf.identityInf _ _ _) (SqpInf.boxQpsInf both lin sq qcfg) (construct demo) s0
        [.set (.initialConditions fun i => i), .set (.uUpperBound fun _ => (1 : ℝ)), .solve cfg sc] = some (w, s) ∧
      SqpInf.solve (SqpInf.defaultEnv P.eps cfg' (P.problem w.w sc) (bounds w) (SqpInf.identityInf _ _ _) (SqpInf.boxQpsInf both lin sq qcfg)) (start w s) = some r ∧ r.status = .SOLVED ∧
      (limits w).ulb 0 0 = ⊥ ∧ (limits w).uub 0 0 = (1 : ℝ) ∧ (limits w).xlb 1 0 = ⊥ ∧ (limits w).xlb 0 1 = (1 : ℝ) ∧
      ∃ y, solutionXAt (finish w r).w 0 1 = some y ∧ |y - 1| ≤ cfg'.epsPrim := by
  have : NeZero (Dims.VAR ⟨2, 1, 1, 1, 2, 2⟩) := ⟨by decide⟩
  obtain ⟨w1, hw1⟩ : ∃ w1, w1 = step P.A (step P.A (construct demo) (.initialConditions fun i => i)) (.uUpperBound fun _ => (1 : ℝ)) := ⟨_, rfl⟩
  obtain ⟨cfg, -, r1, h1, -⟩ := some_solved P.eps (P.problem w1.w sc) (bounds w1) (SqpInf.boxQpsInf both lin sq qcfg) (start w1 s0)
  obtain ⟨cfg', -, r2, h2, h3⟩ := some_solved P.eps (P.problem (finish w1 r1).w sc) (bounds (finish w1 r1)) (SqpInf.boxQpsInf both lin sq qcfg) (start (finish w1 r1) r1)
  have hses : session P (SqpInf.identityInf _ _ _) (SqpInf.boxQpsInf both lin sq qcfg) (construct demo) s0
        [.set (.initialConditions fun i => i), .set (.uUpperBound fun _ => (1 : ℝ)), .solve cfg sc] = some (finish w1 r1, r1) := by
    unfold session session session session
    rw [← hw1, h1]; rfl
  have hlim : limits (finish w1 r1) = limits w1 := rfl
  refine ⟨cfg, cfg', finish w1 r1, r1, r2, hses, h2, h3, ?_, ?_, ?_, ?_, ?_⟩
  · rw [hlim, hw1, step_limits, step_limits, construct_limits]; rfl
  · rw [hlim, hw1, step_limits, step_limits, construct_limits]; rfl
  · rw [hlim, hw1, step_limits, step_limits, construct_limits]; rfl
  · rw [hlim, hw1, step_limits, step_limits, construct_limits]
    simp [DoesInf, atNode]
  · obtain ⟨y, y1, y2⟩ := solved_initial_inf (SqpInf.identity_limit _) (SqpInf.boxQps_limit both lin sq qcfg) (fun i => (i : ℝ)) (ops := [.set (.uUpperBound fun _ => (1 : ℝ)), .solve cfg sc])
      (by intro op hop; simp only [List.mem_cons, List.not_mem_nil, or_false] at hop; rcases hop with rfl | rfl <;> exact id) hses h2 h3 1
    exact ⟨y, y1, by simpa using y2⟩

end PolyMPC.MpcInf
