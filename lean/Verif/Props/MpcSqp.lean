import Verif.Model.MpcSqp
import Verif.Props.Mpc
import Verif.Props.OcpCost
import Verif.Props.Sqp

/-!
# What SOLVED means for the user of the MPC wrapper (C164)
-/

set_option linter.unusedSectionVars false
set_option linter.unusedVariables false

namespace PolyMPC.MpcSqp
open Ocp Mpc Spec
open Polynomial hiding ext

variable {d : Dims} {prec : Sqp.Precond ℝ d.VAR (d.NEQ + d.NINEQ)} {qps : Sqp.QPSolver ℝ d.VAR (d.NEQ + d.NINEQ)}

/-- State, control and parameters at node `k`, counted in time, of the trajectory that the wrapper holds. -/
def point (w : Wrap d ℝ) (k : ℕ) : Fin d.M → ℝ := node d w.x (d.S * d.N - k)

/-- **C164.** These are the vectors that the wrapper's getters return. -/
theorem point_getters (w : Wrap d ℝ) (k : Fin (d.S * d.N + 1)) :
    (∀ i : Fin d.NX, solutionXAt w k i = some (point w k ⟨i, by unfold Dims.M; omega⟩)) ∧
    (∀ i : Fin d.NU, solutionUAt w k i = some (point w k ⟨d.NX + i, by unfold Dims.M; omega⟩)) ∧
    ∀ i : Fin d.NP, solutionP w i = point w k ⟨d.NX + d.NU + i, by unfold Dims.M; omega⟩ := by
  refine ⟨fun i => (x_at w k i).1, fun i => (u_at w k i).1, fun i => ?_⟩
  rw [p_at]
  show node d w.x 0 _ = node d w.x _ _
  unfold node
  dsimp only
  rw [if_neg (by omega), if_neg (by omega), if_neg (by omega), if_neg (by omega)]

/-- The equality constraints depend on the object only through the horizon and the node times. -/
theorem equalities_congr (A : Approx ℝ) (cb : Cbs d ℝ) {o o' : Obj d ℝ} (h1 : o.tStart = o'.tStart) (h2 : o.tStop = o'.tStop) (h3 : o.time = o'.time)
    (junk : ℕ → ℕ → ℝ) (var c0 : ℕ → ℝ) : equalities d A cb o junk var c0 = equalities d A cb o' junk var c0 := by
  unfold equalities tScale
  rw [h1, h2, h3]

/-- A solve does not leave the wrappers that a user can have. -/
theorem finish_reachable {A : Approx ℝ} {w : Wrap d ℝ} (hw : Reachable A w) (r : Sqp.State ℝ d.VAR d.NEQ d.NINEQ prec qps) : Reachable A (finish w r) := by
  obtain ⟨w0, o, t0, t1, cs, h1, h2⟩ := hw
  refine ⟨w0, o, t0, t1, cs ++ [.solve fun _ => (ext r.x, ofDual r.lam)], h1, ?_⟩
  rw [h2]; unfold run; rw [List.foldl_append]; rfl

/-- **C164.** Let a wrapper be used in any way and let its solve end with `SOLVED`, with any QP solver, preconditioner, Hessian and step size. On every segment of the horizon the
polynomials of degree `POLY_ORDER` through the returned states satisfy the differential equation at the collocation nodes up to `eps_prim`, in the time scale of the
segment; for a horizon that starts at zero they are what `solution_x_at(t)` returns. Path constraints, states, controls and parameters are within their bounds up to `eps_prim`. -/
theorem solved_trajectory [NeZero d.VAR] {cb : Cbs d ℝ} (hN : 1 ≤ d.N) (hS : 1 ≤ d.S)
    (hf : ∀ z t old old', ∀ i < d.NX, cb.dyn z t old i = cb.dyn z t old' i) (hg : ∀ z t old old', ∀ i < d.NG, cb.ineq z t old i = cb.ineq z t old' i)
    {w : Wrap d ℝ} (hw : Reachable (chebApprox d.N) w) (ht : w.ocp.tStart < w.ocp.tStop) {sc : Scratch d} {env : Sqp.Env ℝ d.VAR d.NEQ d.NINEQ prec qps}
    (hp : env.prob = problem (chebApprox d.N) cb w.ocp sc) (hb : env.bd = bounds w) {s r : Sqp.State ℝ d.VAR d.NEQ d.NINEQ prec qps}
    (h : Sqp.solve env (start w s) = some r) (hs : r.status = .SOLVED) :
    (∀ σ < d.S, ∀ i : Fin d.NX, ∃ Q : ℝ[X], Q.natDegree ≤ d.N ∧
      (d.S < 2 ^ 31 → w.ocp.tStart = 0 → ∀ t, InSegment d w.ocp.tStart w.ocp.tStop σ t → solutionXAtTime (finish w r) t i = some (Q.eval t)) ∧
      (∀ l ≤ d.N, solutionXAt (finish w r) ((σ * d.N + l : ℕ) : ℤ) i = some (Q.eval (w.grid (σ * d.N + l)))) ∧
      ∀ l ≤ d.N, (0 < l ∨ σ = 0) → (w.ocp.tStop - w.ocp.tStart) / (2 * d.S) *
        |Q.derivative.eval (w.grid (σ * d.N + l)) - cb.dyn (point (finish w r) (σ * d.N + l)) (w.grid (σ * d.N + l)) (fun _ => 0) i| ≤ env.cfg.epsPrim) ∧
    (∀ (k : Fin (d.S * d.N + 1)) (i : Fin d.NG), (abs w).glb k i - env.cfg.epsPrim ≤ cb.ineq (point (finish w r) k) (w.grid k) (fun _ => 0) i ∧
      cb.ineq (point (finish w r) k) (w.grid k) (fun _ => 0) i ≤ (abs w).gub k i + env.cfg.epsPrim) ∧
    (∀ (k : Fin (d.S * d.N + 1)) (i : Fin d.NX), (abs w).xlb k i - env.cfg.epsPrim ≤ (abs (finish w r)).x k i ∧
      (abs (finish w r)).x k i ≤ (abs w).xub k i + env.cfg.epsPrim) ∧
    (∀ (k : Fin (d.S * d.N + 1)) (i : Fin d.NU), (abs w).ulb k i - env.cfg.epsPrim ≤ (abs (finish w r)).u k i ∧
      (abs (finish w r)).u k i ≤ (abs w).uub k i + env.cfg.epsPrim) ∧
    (∀ i : Fin d.NP, (abs w).plb i - env.cfg.epsPrim ≤ (abs (finish w r)).p i ∧ (abs (finish w r)).p i ≤ (abs w).pub i + env.cfg.epsPrim) := by
  obtain ⟨-, -, n3⟩ := (Sqp.solve_control_flow h).2.2.1.mp hs
  obtain ⟨-, v1, v2, v3⟩ := (Sqp.maxViolation_le_iff _ _ _).mp n3
  rw [hp] at v1 v2
  rw [hb] at v2 v3
  have hsy := reachable_synced hw
  obtain ⟨o, ho⟩ := hsy.time
  have hVAR : ∀ i : Fin d.VAR, ext r.x i = r.x i := fun i => by unfold ext; rw [dif_pos i.2]
  have hx : (finish w r).x = ext r.x := rfl
  refine ⟨fun σ hσ i => ?_, fun k i => ?_, fun k i => ?_, fun k i => ?_, fun i => ?_⟩
  · -- chronological segment σ is segment S - 1 - σ of the problem
    obtain ⟨s', hs'⟩ : ∃ s', s' + σ + 1 = d.S := ⟨d.S - 1 - σ, by omega⟩
    have idx : ∀ l ≤ d.N, d.S * d.N - (σ * d.N + l) = s' * d.N + (d.N - l) := by
      intro l hl
      rw [← hs']
      have : (s' + σ + 1) * d.N = s' * d.N + σ * d.N + d.N := by ring
      omega
    have le : ∀ l ≤ d.N, σ * d.N + l < d.S * d.N + 1 := by
      intro l hl
      rw [← hs']
      have : (s' + σ + 1) * d.N = s' * d.N + σ * d.N + d.N := by ring
      omega
    have tm : ∀ l ≤ d.N, w.grid (σ * d.N + l) = (setTimeLimits d (chebApprox d.N) o w.ocp.tStart w.ocp.tStop).time (s' * d.N + (d.N - l)) := by
      intro l hl
      rw [hsy.grid, idx l hl, ho]
    set o' := setTimeLimits d (chebApprox d.N) o w.ocp.tStart w.ocp.tStop with ho'
    -- the interpolant
    let v : Fin (d.N + 1) → ℝ := fun l => o'.time (s' * d.N + l)
    have hs1 : s' < d.S := by omega
    have hinj : Set.InjOn v (Finset.univ : Finset (Fin (d.N + 1))) := by
      intro a _ b _ hab
      have key : ∀ a b : Fin (d.N + 1), a < b → v b < v a := fun a b hlt =>
        time_strictAnti d _ (cheb_good hN) o ht (by have : a.val < b.val := hlt; omega) (node_lt d hs1 (by omega))
      rcases lt_trichotomy a b with h' | h' | h'
      · exact absurd hab (ne_of_gt (key a b h'))
      · exact h'
      · exact absurd hab (ne_of_lt (key b a h'))
    let Q := Lagrange.interpolate Finset.univ v fun l => ext r.x ((s' * d.N + l) * d.NX + i)
    have hQ : Q.natDegree ≤ d.N := by
      have := Lagrange.degree_interpolate_lt (fun l : Fin (d.N + 1) => ext r.x ((s' * d.N + l) * d.NX + i)) hinj
      rw [Finset.card_univ, Fintype.card_fin] at this
      exact natDegree_le_iff_coeff_eq_zero.2 fun m hm => (degree_lt_iff_coeff_zero _ _).1 this m hm
    have hv : ∀ l ≤ d.N, Q.eval (o'.time (s' * d.N + l)) = ext r.x ((s' * d.N + l) * d.NX + i) := fun l hl =>
      Lagrange.eval_interpolate_at_node (fun l : Fin (d.N + 1) => ext r.x ((s' * d.N + l) * d.NX + i)) hinj (Finset.mem_univ ⟨l, by omega⟩)
    have hxa : ∀ l ≤ d.N, solutionXReshaped (finish w r) i (σ * d.N + l) = ext r.x ((s' * d.N + (d.N - l)) * d.NX + i) := by
      intro l hl
      have := (x_at (finish w r) ⟨σ * d.N + l, le l hl⟩ i).2.1
      rw [this]
      show states d (finish w r).x _ i = _
      rw [states_apply, hx]
      show ext r.x ((d.S * d.N - (σ * d.N + l)) * d.NX + i) = _
      rw [idx l hl]
    refine ⟨Q, hQ, fun h31 h0 t hin => ?_, fun l hl => ?_, fun l hl hlσ => ?_⟩
    · obtain ⟨y, hy, Q', hd', hv', rfl⟩ := x_at_time (cheb_good hN) h31 (finish_reachable hw r) ht h0 hin i
      rw [hy]
      congr 2
      refine Polynomial.eq_of_degrees_lt_of_eval_index_eq (s := (Finset.univ : Finset (Fin (d.N + 1)))) (v := v) hinj ?_ ?_ ?_
      · rw [Finset.card_univ, Fintype.card_fin]
        exact lt_of_le_of_lt (degree_le_of_natDegree_le hd') (by exact_mod_cast Nat.lt_succ_self _)
      · rw [Finset.card_univ, Fintype.card_fin]
        exact lt_of_le_of_lt (degree_le_of_natDegree_le hQ) (by exact_mod_cast Nat.lt_succ_self _)
      · intro l _
        have e1 := hv' (d.N - l) (by omega)
        have e2 : (finish w r).grid (σ * d.N + (d.N - l)) = v l := by
          show w.grid _ = o'.time _
          rw [tm _ (by omega), show d.N - (d.N - l.val) = l by omega]
        change Q'.eval ((finish w r).grid (σ * d.N + (d.N - l))) = solutionXReshaped (finish w r) i (σ * d.N + (d.N - l)) at e1
        rw [e2, hxa _ (by omega), show d.N - (d.N - l.val) = l by omega] at e1
        rw [e1]
        exact (hv l (by omega)).symm
    · have := (x_at (finish w r) ⟨σ * d.N + l, le l hl⟩ i).1
      rw [this, tm l hl, hv _ (by omega)]
      show some (states d (finish w r).x _ i) = _
      rw [states_apply, hx]
      show some (ext r.x ((d.S * d.N - (σ * d.N + l)) * d.NX + i)) = _
      rw [idx l hl]
    · have hj : d.N - l ≤ d.N := by omega
      have hjs : d.N - l < d.N ∨ s' + 1 = d.S := by omega
      have hk := node_lt d hs1 hj
      have hrow := xIdx_lt d hk i.2
      have e := cheb_residual_poly d cb o sc.junk (ext r.x) sc.c0 hN hf w.ocp.tStart w.ocp.tStop hs1 i.2 Q hQ hv (d.N - l) hj hjs
      have e1 := constraints_eq_part d (chebApprox d.N) cb o' sc.junk (ext r.x) sc.c0 hrow
      have e2 := v1 ⟨_, hrow⟩
      change |equalities d (chebApprox d.N) cb w.ocp sc.junk (ext r.x) sc.c0 ((s' * d.N + (d.N - l)) * d.NX + i)| ≤ _ at e2
      rw [equalities_congr (chebApprox d.N) cb (o := w.ocp) (o' := o') rfl rfl ho, ← e1, e, abs_mul, abs_of_pos] at e2
      · unfold point
        rw [hx, tm l hl, idx l hl]
        exact e2
      · have : (0 : ℝ) < d.S := by exact_mod_cast hS
        have := sub_pos.2 ht
        positivity
  · have hk : d.S * d.N - k < d.NN := by unfold Dims.NN; omega
    have hr : (d.S * d.N - k) * d.NG + i < d.NINEQ := by unfold Dims.NINEQ; rw [Nat.mul_comm d.NG]; exact blk_le i.2 hk
    have e2 := v2 ⟨_, hr⟩
    change w.lbg _ - _ ≤ inequalities d cb w.ocp (ext r.x) sc.c0 _ ∧ inequalities d cb w.ocp (ext r.x) sc.c0 _ ≤ w.ubg _ + _ at e2
    dsimp only at e2
    rw [inequalities_closed d cb w.ocp (ext r.x) sc.c0 hg hk i.2] at e2
    rw [hsy.grid]
    exact e2
  · have hlt : (d.S * d.N - k) * d.NX + i < d.VAR := by
      have := (rev_mul k i).1
      unfold Dims.VAR; rw [varx_eq]; omega
    have e2 := v3 ⟨_, hlt⟩
    show states d w.lbx k i - _ ≤ states d (finish w r).x k i ∧ states d (finish w r).x k i ≤ states d w.ubx k i + _
    rw [states_apply, states_apply, states_apply, hx, hVAR ⟨_, hlt⟩]
    exact e2
  · have hlt : d.VARX + ((d.S * d.N - k) * d.NU + i) < d.VAR := by
      have := (rev_mul k i).1
      unfold Dims.VAR; rw [varu_eq]; omega
    have e2 := v3 ⟨_, hlt⟩
    show controls d w.lbx k i - _ ≤ controls d (finish w r).x k i ∧ controls d (finish w r).x k i ≤ controls d w.ubx k i + _
    rw [controls_apply, controls_apply, controls_apply, hx, hVAR ⟨_, hlt⟩]
    exact e2
  · have hlt : d.VARX + d.VARU + i < d.VAR := by unfold Dims.VAR; omega
    have e2 := v3 ⟨_, hlt⟩
    show params d w.lbx i - _ ≤ params d (finish w r).x i ∧ params d (finish w r).x i ≤ params d w.ubx i + _
    rw [params_apply, params_apply, params_apply, hx, hVAR ⟨_, hlt⟩]
    exact e2

/-- **C164.** After `initial_conditions(x0)` and any other calls, a solve that ends with `SOLVED` returns a trajectory that starts at `x0`, up to `eps_prim`. -/
theorem solved_initial [NeZero d.VAR] {A : Approx ℝ} {w : Wrap d ℝ} (x0 : ℕ → ℝ) (cs : List (Call d ℝ)) (hcs : ∀ c ∈ cs, ¬ SetsInitial c)
    {env : Sqp.Env ℝ d.VAR d.NEQ d.NINEQ prec qps} (hb : env.bd = bounds (run A (initialConditions w x0) cs)) {s r : Sqp.State ℝ d.VAR d.NEQ d.NINEQ prec qps}
    (h : Sqp.solve env (start (run A (initialConditions w x0) cs) s) = some r) (hs : r.status = .SOLVED) (i : Fin d.NX) :
    ∃ y, solutionXAt (finish (run A (initialConditions w x0) cs) r) 0 i = some y ∧ |y - x0 i| ≤ env.cfg.epsPrim := by
  obtain ⟨-, -, n3⟩ := (Sqp.solve_control_flow h).2.2.1.mp hs
  obtain ⟨-, -, -, v3⟩ := (Sqp.maxViolation_le_iff _ _ _).mp n3
  rw [hb] at v3
  have hk := initial_kept A (initialConditions w x0) cs hcs
  have hd := step_does A w (.initialConditions x0)
  simp only [Does] at hd
  have hl : (abs (run A (initialConditions w x0) cs)).xlb 0 i = x0 i := by
    rw [hk.1]; show (abs (step A w (.initialConditions x0))).xlb 0 i = _
    rw [hd]; simp [atNode]
  have hu : (abs (run A (initialConditions w x0) cs)).xub 0 i = x0 i := by
    rw [hk.2]; show (abs (step A w (.initialConditions x0))).xub 0 i = _
    rw [hd]; simp [atNode]
  generalize run A (initialConditions w x0) cs = w2 at *
  have hlt : (d.S * d.N - (0 : Fin (d.S * d.N + 1))) * d.NX + i < d.VAR := by
    have := (rev_mul (0 : Fin (d.S * d.N + 1)) i).1
    unfold Dims.VAR; rw [varx_eq]; omega
  have e2 := v3 ⟨_, hlt⟩
  refine ⟨_, (x_at (finish w2 r) 0 i).1, ?_⟩
  have e3 : (abs (finish w2 r)).x 0 i = r.x ⟨_, hlt⟩ := by
    show states d (finish w2 r).x 0 i = _
    rw [states_apply]
    show ext r.x _ = _
    unfold ext; rw [dif_pos hlt]
  have hl' : w2.lbx ((d.S * d.N - (0 : Fin (d.S * d.N + 1))) * d.NX + i) = x0 i := by rw [← hl]; exact (states_apply _ _ _).symm
  have hu' : w2.ubx ((d.S * d.N - (0 : Fin (d.S * d.N + 1))) * d.NX + i) = x0 i := by rw [← hu]; exact (states_apply _ _ _).symm
  change w2.lbx _ - _ ≤ r.x _ ∧ r.x _ ≤ w2.ubx _ + _ at e2
  rw [hl', hu'] at e2
  rw [e3, abs_le]
  constructor <;> linarith [e2.1, e2.2]

end PolyMPC.MpcSqp
