import Verif.Props.MpcWarm

/-!
# C235: at its set point the MPC controller commands the set point, for ever

The set point of a controller is a state, control and parameter vector at which the dynamics vanish and at which running and terminal cost are least, and which meets the limits.
With the Chebyshev scheme the trajectory that stays there satisfies the optimality conditions of the transcribed problem, with zero multipliers. A controller that holds it, started on a
plant at rest, returns it from every solve: the control that it commands is the one of the set point, and the plant stays where it is, over any number of steps.
C231 shows that this fails for the Legendre scheme.
-/

set_option linter.unusedSectionVars false
set_option linter.unusedVariables false

namespace PolyMPC.MpcSqp
open Ocp Mpc Spec QuasiNewton
open Matrix hiding ext
open AD hiding Dual

variable {d : Dims} {cb : Cbs d ℝ} {f g : ℕ → ℕ → (Fin d.M → ℝ) → ℝ} {L : ℕ → (Fin d.M → ℝ) → ℝ} {m : (Fin d.M → ℝ) → ℝ} {sc : Scratch d}

/-- State, control and parameters `z` at which the dynamics vanish and the costs are least, at all nodes. -/
structure SetPoint (d : Dims) (f : ℕ → ℕ → (Fin d.M → ℝ) → ℝ) (L : ℕ → (Fin d.M → ℝ) → ℝ) (m : (Fin d.M → ℝ) → ℝ) (z : Fin d.M → ℝ) : Prop where
  rest : ∀ k < d.NN, ∀ i < d.NX, f k i z = 0
  lag : ∀ k < d.NN, ∀ z', L k z ≤ L k z'
  mayer : ∀ z', m z ≤ m z'

/-- The wrapper holds the trajectory that stays at `z`, as its getters return it. -/
def Holds (w : Wrap d ℝ) (z : Fin d.M → ℝ) : Prop := ∀ k ≤ d.S * d.N, point w k = z

/-- The limits of the wrapper contain `z` at every node, those of the initial state excepted: they are set by `initial_conditions`. -/
structure Admits (w : Wrap d ℝ) (g : ℕ → ℕ → (Fin d.M → ℝ) → ℝ) (z : Fin d.M → ℝ) : Prop where
  box : ∀ k < d.NN, ∀ i : Fin d.M, (k = d.S * d.N → d.NX ≤ i.val) → node d w.lbx k i ≤ z i ∧ z i ≤ node d w.ubx k i
  path : ∀ k < d.NN, ∀ i < d.NG, w.lbg (k * d.NG + i) ≤ g k i z ∧ g k i z ≤ w.ubg (k * d.NG + i)

theorem Holds.node {w : Wrap d ℝ} {z : Fin d.M → ℝ} (h : Holds w z) {k : ℕ} (hk : k < d.NN) : node d w.x k = z := by
  unfold Dims.NN at hk
  have := h (d.S * d.N - k) (by omega)
  unfold point at this
  rwa [Nat.sub_sub_self (by omega)] at this

theorem Holds.at {w : Wrap d ℝ} {z : Fin d.M → ℝ} (h : Holds w z) {k : ℕ} (hk : k < d.NN) (i : Fin d.M) : w.x (nodeIdx d k i) = z i := by
  rw [← node_eq d w.x k i, h.node hk]

/-- Every variable is a component of a node. -/
theorem var_node {c : ℕ} (hc : c < d.VAR) : ∃ k < d.NN, ∃ i : Fin d.M, nodeIdx d k i = c := by
  unfold Dims.VAR at hc
  have hM : d.M = d.NX + d.NU + d.NP := rfl
  rcases Nat.lt_or_ge c d.VARX with h1 | h1
  · obtain ⟨a, b, e⟩ := div_mod_flat (n := d.NX) (m := d.NN) h1
    exact ⟨c / d.NX, a, ⟨c % d.NX, by omega⟩, by rw [nodeIdx_x d _ b, e]⟩
  · rcases Nat.lt_or_ge c (d.VARX + d.VARU) with h2 | h2
    · obtain ⟨a, b, e⟩ := div_mod_flat (n := d.NU) (m := d.NN) (q := c - d.VARX) (by unfold Dims.VARU at h2; omega)
      exact ⟨_, a, ⟨d.NX + (c - d.VARX) % d.NU, by omega⟩, by rw [nodeIdx_u d _ b]; omega⟩
    · exact ⟨0, zero_lt_NN d, ⟨d.NX + d.NU + (c - (d.VARX + d.VARU)), by omega⟩, by rw [nodeIdx_p]; omega⟩

/-- A gradient vanishes at a least value. -/
theorem gradient_zero {n : ℕ} {φ : (Fin n → ℝ) → ℝ} {v x : Fin n → ℝ} (h : IsGradient φ v x) (hm : ∀ x', φ x ≤ φ x') : v = 0 := by
  have h0 := IsLocalMin.hasFDerivAt_eq_zero (Filter.Eventually.of_forall hm) h
  funext i
  have := congrArg (fun T : (Fin n → ℝ) →L[ℝ] ℝ => T (Pi.single i 1)) h0
  simpa [gradMap_apply, Pi.single_apply] using this

theorem ext_node {w : Wrap d ℝ} {k : ℕ} (hk : k < d.NN) : node d (ext fun i : Fin d.VAR => w.x i) k = node d w.x k := by
  rw [node_ext d _ hk]
  funext i
  rw [node_eq]

/-- **C235.** The trajectory that stays at the set point satisfies the optimality conditions of the transcribed problem, with all multipliers zero. -/
theorem rest_stationary (hS : 1 ≤ d.S) (hN : 1 ≤ d.N) {w : Wrap d ℝ} (ht : w.ocp.tStart < w.ocp.tStop) (h : Exact cb w.ocp.time f g L m) {z : Fin d.M → ℝ}
    (hz : SetPoint d f L m z) (hh : Holds w z) (ha : Admits w g z)
    (hi : ∀ i : Fin d.M, i.val < d.NX → node d w.lbx (d.S * d.N) i ≤ z i ∧ z i ≤ node d w.ubx (d.S * d.N) i) :
    Sqp.Stationary (problem (chebApprox d.N) cb w.ocp sc) (bounds w) (fun i => w.x i) 0 := by
  obtain ⟨p1, -, -⟩ := problem_parts (sc := sc) hS hN (cheb_skew d hN) h (fun i => w.x i)
  have hts : 0 < (w.ocp.tStop - w.ocp.tStart) / (2 * (d.S : ℝ)) := by
    have : (0 : ℝ) < d.S := by exact_mod_cast hS
    have := sub_pos.2 ht
    positivity
  have hg : (problem (chebApprox d.N) cb w.ocp sc).costGrad (fun i => w.x i) = 0 := by
    refine gradient_zero p1 fun x' => ?_
    show cost d (chebApprox d.N) cb w.ocp _ ≤ cost d (chebApprox d.N) cb w.ocp _
    rw [cost_quadrature d _ cb w.ocp _ (fun k => L k (node d (ext fun i : Fin d.VAR => w.x i) k)) (fun k hk old => (h.lag k hk 0).plain _ old),
      cost_quadrature d _ cb w.ocp _ (fun k => L k (node d (ext x') k)) (fun k hk old => (h.lag k hk 0).plain _ old),
      (h.mayer 0).plain, (h.mayer 0).plain, ext_node (zero_lt_NN d), hh.node (zero_lt_NN d)]
    refine add_le_add (Finset.sum_le_sum fun s hs => Finset.sum_le_sum fun j hj => ?_) (hz.mayer _)
    have hs' := Finset.mem_range.1 hs
    have hj' : j ≤ d.N := by have := Finset.mem_range.1 hj; omega
    have hk := node_lt d hs' hj'
    have hw : 0 < (chebApprox d.N).w j := by rw [cheb_w d.N ⟨j, by omega⟩]; exact Cheb.intWeights_pos hN _
    refine mul_le_mul_of_nonneg_left ?_ (mul_pos hts hw).le
    rw [ext_node hk, hh.node hk]
    exact hz.lag _ hk _
  have he : (problem (chebApprox d.N) cb w.ocp sc).eq (fun i => w.x i) = 0 := by
    funext r
    obtain ⟨k, i, hk, hi', e⟩ := blk_split (n := d.NX) (show r.val < d.NX * d.NN from r.2)
    obtain ⟨s, j, hs, hj, hjs, rfl⟩ := node_split d hS hN hk
    show equalities d _ cb w.ocp sc.junk _ sc.c0 r = 0
    rw [e, equalities_at d _ cb w.ocp sc.junk _ sc.c0 (fun k i => f k i (node d (ext fun i : Fin d.VAR => w.x i) k)) (fun k hk old i hi => (h.dyn k hk 0).plain _ old i hi) hk hi',
      ext_node hk, hh.node hk, hz.rest _ hk _ hi', mul_zero, sub_zero, diffX_closed d _ _ sc.junk hs hj hjs hi']
    have hM : i < d.M := by unfold Dims.M; omega
    have hv : ∀ l ∈ Finset.range (d.N + 1), (chebApprox d.N).D j l * ext (fun c : Fin d.VAR => w.x c) ((s * d.N + l) * d.NX + i)
        = (chebApprox d.N).D j l * z ⟨i, hM⟩ := by
      intro l hl
      have hl' : l ≤ d.N := by have := Finset.mem_range.1 hl; omega
      have hkl := node_lt d hs hl'
      have hlt : (s * d.N + l) * d.NX + i < d.VAR := by have := xIdx_lt d hkl hi'; unfold Dims.VAR; omega
      have := hh.at hkl ⟨i, hM⟩
      rw [nodeIdx_x d _ hi'] at this
      unfold ext
      rw [dif_pos hlt]
      exact congrArg _ this
    rw [Finset.sum_congr rfl hv, ← Finset.sum_mul, Finset.sum_range]
    have hD : ∀ l : Fin (d.N + 1), (chebApprox d.N).D j l = Cheb.diffMatrix d.N ⟨j, by omega⟩ l := fun l => cheb_D d.N ⟨j, by omega⟩ l
    rw [Finset.sum_congr rfl fun l _ => hD l, Cheb.diffMatrix_row_sum, zero_mul]
  refine ⟨?_, ⟨fun r => congrFun he r, fun r => ?_, fun c => ?_⟩, fun i => ⟨fun hc => absurd hc (lt_irrefl _), fun hc => absurd hc (lt_irrefl _)⟩,
    fun i => ⟨fun hc => absurd hc (lt_irrefl _), fun hc => absurd hc (lt_irrefl _)⟩⟩
  · rw [hg]
    have e1 : Sqp.lamE (0 : Sqp.Dual ℝ d.VAR d.NEQ d.NINEQ) = 0 := rfl
    have e2 : Sqp.lamI (0 : Sqp.Dual ℝ d.VAR d.NEQ d.NINEQ) = 0 := rfl
    have e3 : Sqp.lamX (0 : Sqp.Dual ℝ d.VAR d.NEQ d.NINEQ) = 0 := rfl
    rw [e1, e2, e3, mulVec_zero, mulVec_zero]
    simp
  · obtain ⟨k, i, hk, hi', e⟩ := blk_split (n := d.NG) (show r.val < d.NG * d.NN from r.2)
    have e2 : (problem (chebApprox d.N) cb w.ocp sc).ineq (fun i => w.x i) r = g k i z := by
      show inequalities d cb w.ocp _ sc.c0 r = _
      rw [e, inequalities_at d cb w.ocp _ sc.c0 (fun k i => g k i (node d (ext fun i : Fin d.VAR => w.x i) k)) (fun k hk old i hi => (h.ineq k hk 0).plain _ old i hi) hk hi',
        ext_node hk, hh.node hk]
    rw [e2]
    have := ha.path k hk i hi'
    rw [← e] at this
    exact this
  · obtain ⟨k, hk, i, e⟩ := var_node c.2
    have hx := hh.at hk i
    have : node d w.lbx k i ≤ z i ∧ z i ≤ node d w.ubx k i := by
      by_cases hc : k = d.S * d.N ∧ i.val < d.NX
      · obtain ⟨rfl, hc⟩ := hc
        exact hi i hc
      · exact ha.box k hk i fun h1 => by push Not at hc; exact hc h1
    rw [node_eq, node_eq, e, ← hx, e] at this
    exact this

variable {prec : Sqp.Precond ℝ d.VAR (d.NEQ + d.NINEQ)} {qps : Sqp.QPSolver ℝ d.VAR (d.NEQ + d.NINEQ)}

/-- The state components of `z`. -/
def statePart (z : Fin d.M → ℝ) : Fin d.NX → ℝ := fun i => z ⟨i, by unfold Dims.M; omega⟩
/-- The control components of `z`. -/
def controlPart (z : Fin d.M → ℝ) : Fin d.NU → ℝ := fun i => z ⟨d.NX + i, by unfold Dims.M; omega⟩

/-- A plant and its controller: `plant x u` is the state that follows `x` if the control `u` is applied. In each step the state is handed to `initial_conditions`, `solve` is called,
and the control at the start of the returned trajectory is applied. `Loop … x w s` holds if the plant can be at `x` with the wrapper `w` and the solver `s`. -/
inductive Loop (A : Approx ℝ) (cb : Cbs d ℝ) (sc : Scratch d) (env : Sqp.Problem ℝ d.VAR d.NEQ d.NINEQ → Sqp.Bounds ℝ d.VAR d.NINEQ → Sqp.Env ℝ d.VAR d.NEQ d.NINEQ prec qps)
    [NeZero d.VAR] (plant : (Fin d.NX → ℝ) → (Fin d.NU → ℝ) → Fin d.NX → ℝ) (x0 : Fin d.NX → ℝ) (w0 : Wrap d ℝ) (s0 : Sqp.State ℝ d.VAR d.NEQ d.NINEQ prec qps) :
    (Fin d.NX → ℝ) → Wrap d ℝ → Sqp.State ℝ d.VAR d.NEQ d.NINEQ prec qps → Prop
  | init : Loop A cb sc env plant x0 w0 s0 x0 w0 s0
  | step {x w s r} : Loop A cb sc env plant x0 w0 s0 x w s →
      Sqp.solve (env (problem A cb w.ocp sc) (bounds (initialConditions w (ext x)))) (start (initialConditions w (ext x)) s) = some r →
      Loop A cb sc env plant x0 w0 s0 (plant x (controlPart (point (finish (initialConditions w (ext x)) r) 0))) (finish (initialConditions w (ext x)) r) r

theorem conditions_box {w : Wrap d ℝ} {z : Fin d.M → ℝ} (ha : Admits w g z) :
    Admits (initialConditions w (ext (statePart z))) g z ∧
    ∀ i : Fin d.M, i.val < d.NX → node d (initialConditions w (ext (statePart z))).lbx (d.S * d.N) i ≤ z i ∧ z i ≤ node d (initialConditions w (ext (statePart z))).ubx (d.S * d.N) i := by
  have hX : d.VARX = d.S * d.N * d.NX + d.NX := by unfold Dims.VARX Dims.NN; ring
  constructor
  · refine ⟨fun k hk i hc => ?_, ha.path⟩
    have h0 := ha.box k hk i hc
    have key : ¬ (d.VARX - d.NX ≤ nodeIdx d k i ∧ nodeIdx d k i < d.VARX - d.NX + d.NX) := by
      rintro ⟨h1, h2⟩
      by_cases hi : i.val < d.NX
      · rw [nodeIdx_x d _ hi] at h1
        unfold Dims.NN at hk
        rcases Nat.lt_or_ge k (d.S * d.N) with h | h
        · have : (k + 1) * d.NX ≤ d.S * d.N * d.NX := Nat.mul_le_mul_right _ h
          rw [Nat.add_mul, Nat.one_mul] at this
          omega
        · have := hc (by omega); omega
      · unfold nodeIdx at h2
        rw [if_neg hi] at h2
        split_ifs at h2 <;> omega
    rw [node_eq, node_eq] at h0 ⊢
    show setSeg _ _ _ _ _ ≤ _ ∧ _ ≤ setSeg _ _ _ _ _
    unfold setSeg
    rw [if_neg key, if_neg key]
    exact h0
  · intro i hi
    rw [node_eq, node_eq, nodeIdx_x d _ hi]
    show setSeg _ _ _ _ _ ≤ _ ∧ _ ≤ setSeg _ _ _ _ _
    unfold setSeg
    rw [if_pos (by omega), if_pos (by omega), show d.S * d.N * d.NX + i.val - (d.VARX - d.NX) = i.val by omega]
    unfold ext
    rw [dif_pos hi]
    exact ⟨le_rfl, le_rfl⟩

/-- **C235.** Any plant that stays at the state of the set point under its control, and a controller that holds the set point and is asked again and again: no solve fails, whatever
status it reports the controller still holds the set point after it, and the plant stays at rest. -/
theorem rest_kept [NeZero d.VAR] (hS : 1 ≤ d.S) (hN : 1 ≤ d.N) {w0 : Wrap d ℝ} (ht : w0.ocp.tStart < w0.ocp.tStop) (h : Exact cb w0.ocp.time f g L m) {z : Fin d.M → ℝ}
    (hz : SetPoint d f L m z) (hh : Holds w0 z) (ha : Admits w0 g z)
    {eps : ℝ} (heps : 0 < eps) {cfg : Sqp.Settings ℝ} (hl : Sqp.LawfulPrecond prec) (hpd : ∀ m qp, ∃ r, prec.compute m qp = some r) (hex : Sqp.ExactQP qps)
    (hH : ∀ lam, SPD ((problem (chebApprox d.N) cb w0.ocp sc).lagHess (fun i => w0.x i) lam))
    {plant : (Fin d.NX → ℝ) → (Fin d.NU → ℝ) → Fin d.NX → ℝ} (hp : plant (statePart z) (controlPart z) = statePart z) (s0 : Sqp.State ℝ d.VAR d.NEQ d.NINEQ prec qps)
    {x w s} (hr : Loop (chebApprox d.N) cb sc (fun P b => Sqp.defaultEnv eps cfg P b) plant (statePart z) w0 s0 x w s) :
    x = statePart z ∧ Holds w z ∧
      ∃ r, Sqp.solve (Sqp.defaultEnv eps cfg (problem (chebApprox d.N) cb w.ocp sc) (bounds (initialConditions w (ext x)))) (start (initialConditions w (ext x)) s) = some r ∧
        point (finish (initialConditions w (ext x)) r) 0 = z := by
  have one : ∀ w s, Holds w z → Admits w g z → w.ocp = w0.ocp → (∀ i < d.VAR, w.x i = w0.x i) →
      (∃ r, Sqp.solve (Sqp.defaultEnv eps cfg (problem (chebApprox d.N) cb w.ocp sc) (bounds (initialConditions w (ext (statePart z)))))
        (start (prec := prec) (qps := qps) (initialConditions w (ext (statePart z))) s) = some r) ∧
      ∀ r, Sqp.solve (Sqp.defaultEnv eps cfg (problem (chebApprox d.N) cb w.ocp sc) (bounds (initialConditions w (ext (statePart z)))))
        (start (prec := prec) (qps := qps) (initialConditions w (ext (statePart z))) s) = some r →
        (∀ i < d.VAR, (finish (initialConditions w (ext (statePart z))) r).x i = w.x i) := by
    intro w s hw haw ho hx
    have hfx : (fun i : Fin d.VAR => w.x i) = fun i : Fin d.VAR => w0.x i := funext fun i => hx i i.2
    have h0 : SPD ((problem (chebApprox d.N) cb w.ocp sc).lagHess (fun i => w.x i) (toDual d w.lam)) := by rw [hfx, ho]; exact hH _
    obtain ⟨b1, b2⟩ := conditions_box haw
    have hst := rest_stationary (sc := sc) hS hN (w := initialConditions w (ext (statePart z))) (by show w.ocp.tStart < w.ocp.tStop; rw [ho]; exact ht)
      (by show Exact cb w.ocp.time f g L m; rw [ho]; exact h) hz hw b1 b2
    refine ⟨Sqp.solve_defined heps hl hpd _ h0, fun r hr i hi => ?_⟩
    have := (Sqp.stationary_point_kept (env := Sqp.defaultEnv eps cfg (problem (chebApprox d.N) cb w.ocp sc) (bounds (initialConditions w (ext (statePart z)))))
      (st := start (initialConditions w (ext (statePart z))) s) hl hex
      (fun H s y H' hH hu => by obtain ⟨B', e1, e2⟩ := bfgs_keeps_spd heps hH s y; rw [show H' = B' from Option.some.inj (hu.symm.trans e1)]; exact e2)
      (problem_coherent (sc := sc) hS hN (cheb_skew d hN) (by rw [ho]; exact h)) h0 hst).2 hr
    show ext r.x i = w.x i
    rw [this]
    unfold ext
    rw [dif_pos hi]
    rfl
  have holds : ∀ w w' : Wrap d ℝ, Holds w z → (∀ i < d.VAR, w'.x i = w.x i) → Holds w' z := by
    intro w w' hw he k hk
    rw [← hw k hk]
    funext i
    unfold point
    rw [node_eq, node_eq]
    exact he _ (nodeIdx_lt d (by unfold Dims.NN; omega) i.2)
  have inv : x = statePart z ∧ Holds w z ∧ Admits w g z ∧ w.ocp = w0.ocp ∧ ∀ i < d.VAR, w.x i = w0.x i := by
    induction hr with
    | init => exact ⟨rfl, hh, ha, rfl, fun _ _ => rfl⟩
    | @step x w s r _ hsol ih =>
      obtain ⟨rfl, i1, i2, i3, i4⟩ := ih
      have hx := (one w s i1 i2 i3 i4).2 r hsol
      have hn := holds w _ i1 hx
      refine ⟨?_, hn, ⟨(conditions_box i2).1.box, i2.path⟩, i3, fun i hi => (hx i hi).trans (i4 i hi)⟩
      rw [hn 0 (Nat.zero_le _), hp]
  obtain ⟨rfl, i1, i2, i3, i4⟩ := inv
  obtain ⟨⟨r, hr'⟩, h2⟩ := one w s i1 i2 i3 i4
  exact ⟨rfl, i1, r, hr', holds w _ i1 (h2 r hr') 0 (Nat.zero_le _)⟩

/-- **C235.** Linear-quadratic control without parameters: the Hessians are positive definite whatever the multipliers are. -/
theorem linQuad_rest_kept [NeZero d.VAR] (hS : 1 ≤ d.S) (hN : 1 ≤ d.N) (hP : d.NP = 0) (hU : d.NU ≤ d.NX) (hVX : d.NX ≤ d.VARU ∨ d.NU = 0) {w0 : Wrap d ℝ}
    (ht : w0.ocp.tStart < w0.ocp.tStop) (h : Exact cb w0.ocp.time f g L m) (hq : LinQuad d f g L m) {z : Fin d.M → ℝ}
    (hz : SetPoint d f L m z) (hh : Holds w0 z) (ha : Admits w0 g z)
    {eps : ℝ} (heps : 0 < eps) {cfg : Sqp.Settings ℝ} (hl : Sqp.LawfulPrecond prec) (hpd : ∀ m qp, ∃ r, prec.compute m qp = some r) (hex : Sqp.ExactQP qps)
    {plant : (Fin d.NX → ℝ) → (Fin d.NU → ℝ) → Fin d.NX → ℝ} (hp : plant (statePart z) (controlPart z) = statePart z) (s0 : Sqp.State ℝ d.VAR d.NEQ d.NINEQ prec qps)
    {x w s} (hr : Loop (chebApprox d.N) cb sc (fun P b => Sqp.defaultEnv eps cfg P b) plant (statePart z) w0 s0 x w s) :
    x = statePart z ∧ ∀ k : Fin (d.S * d.N + 1), ∀ i : Fin d.NU, solutionUAt w k i = some (controlPart z i) := by
  obtain ⟨Q, q, c, B, b, hSPD, hQP⟩ := linQuad_isQP (sc := sc) hS hN (cheb_skew d hN)
    (fun j hj => by rw [cheb_w d.N ⟨j, by omega⟩]; exact Cheb.intWeights_pos hN _) hP hU hVX ht h hq
  obtain ⟨h1, h2, -⟩ := rest_kept (sc := sc) hS hN ht h hz hh ha heps hl hpd hex (fun lam => by rw [hQP.hess]; exact hSPD) hp s0 hr
  refine ⟨h1, fun k i => ?_⟩
  rw [(point_getters w k).2.1 i, h2 k (by omega)]
  rfl

/-! ### Non-vacuity -/

/-- The problem of C165 with a wrapper that holds the zero trajectory. -/
noncomputable def lqFresh : Wrap lqDims ℝ :=
  let o : Obj lqDims ℝ := ⟨0, 1, fun _ => 0, fun _ => ⟨0, fun _ => 0⟩, fun _ => ⟨0, fun _ => 0⟩, ⟨0, fun _ => 0⟩, ⟨⟨0, fun _ => 0⟩, fun _ => ⟨0, fun _ => 0⟩⟩⟩
  ⟨fun _ => -10, fun _ => 10, fun _ => 0, fun _ => 0, fun _ => 0, fun _ => 0, fun _ => 0, setTimeLimits _ (chebApprox 1) o 0 2, fun _ => 0, fun _ => 0, none, 1, 1⟩

/-- The plant `x' = u`, sampled with half a second: started at rest it is at rest after any number of steps, and the control is zero. -/
example {qps : Sqp.QPSolver ℝ lqDims.VAR (lqDims.NEQ + lqDims.NINEQ)} (hex : Sqp.ExactQP qps) (sc : Scratch lqDims)
    (s0 : Sqp.State ℝ lqDims.VAR lqDims.NEQ lqDims.NINEQ (Sqp.identityPrecond ℝ _ _) qps) {x w s}
    (hr : Loop (chebApprox 1) lqSrc.cbs sc (fun P b => Sqp.defaultEnv (1 / 2 ^ 52) Sqp.Settings.default P b) (fun x u i => x i + 1 / 2 * u i) 0 lqFresh s0 x w s) :
    x = 0 ∧ ∀ k : Fin 2, ∀ i : Fin 1, solutionUAt w k i = some 0 := by
  refine linQuad_rest_kept (d := lqDims) (w0 := lqFresh) (z := 0) (by decide) (by decide) rfl (by decide) (Or.inl (by decide)) (by show (0 : ℝ) < 2; norm_num) (lq_exact _) lq_linQuad
    ⟨fun _ _ _ _ => rfl, fun _ _ z' => ?_, fun _ => le_rfl⟩ (fun k hk => ?_) ⟨fun k hk i _ => ?_, fun k hk i hi => absurd hi (by decide +revert)⟩ (by norm_num)
    (Sqp.identity_lawful _) (fun m qp => ⟨_, rfl⟩) hex ?_ s0 hr
  · have h1 := mul_self_nonneg (z' 0)
    have h2 := mul_self_nonneg (z' 1)
    simp only [Pi.zero_apply, mul_zero, add_zero]
    linarith
  · funext i
    unfold point
    rw [node_eq]
    rfl
  · rw [node_eq, node_eq]
    show (-10 : ℝ) ≤ 0 ∧ (0 : ℝ) ≤ 10
    norm_num
  · funext i
    show (0 : ℝ) + 1 / 2 * 0 = 0
    norm_num

/-- A set point away from the origin: `x' = u - x` with the cost `(x - 1)² + (u - 1)²` rests at one, with the control one. -/
example : SetPoint lqDims (fun _ _ z => z 1 - z 0) (fun _ z => (z 0 - 1) ^ 2 + (z 1 - 1) ^ 2) (fun _ => 0) 1 where
  rest _ _ _ _ := sub_self _
  lag _ _ z' := by
    simp only [Pi.one_apply, sub_self]
    nlinarith [sq_nonneg (z' 0 - 1), sq_nonneg (z' 1 - 1)]
  mayer _ := le_rfl

end PolyMPC.MpcSqp
