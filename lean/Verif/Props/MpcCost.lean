import Verif.Props.MpcAccuracy
import Verif.Props.OcpCost
import Verif.Props.SqpCost

/-!
# Property C209: the cost that the MPC wrapper reports is the cost of running the plant
-/

set_option linter.unusedSectionVars false

namespace PolyMPC.Colloc
open Polynomial Set Spec MeasureTheory

/-- **C209**, one segment: the Clenshaw-Curtis rule of degree `N` on `[a, a + h]` has an error of order `N + 2` in `h`. -/
theorem quadrature_accurate {N : ℕ} (hN : 1 ≤ N) {a h M : ℝ} (hh : 0 ≤ h) {f f' : ℝ → ℝ}
    (hf : SmoothSolution 1 N (fun _ => f) (fun _ => f') a (a + h) M) :
    |Cheb.integrate N f a (a + h) - ∫ t in a..(a + h), f t| ≤ 2 * h * (h * (M * h ^ N / (N - 1).factorial)) := by
  obtain ⟨m, rfl⟩ : ∃ m, N = m + 1 := ⟨N - 1, by omega⟩
  obtain ⟨P, hP, -, -, hd⟩ := taylor_poly (m := m) hh (y := f) (v := f') (hf.deriv 0 one_pos) (by exact_mod_cast hf.smooth 0 one_pos) (hf.bound 0 one_pos)
  rw [Nat.add_sub_cancel]
  set δ := h * (M * h ^ (m + 1) / m.factorial) with hδ
  have hcf : ContinuousOn f (Icc a (a + h)) := fun t ht => (hf.deriv 0 one_pos t ht).continuousWithinAt
  have hif : IntervalIntegrable f volume a (a + h) := by
    refine ContinuousOn.intervalIntegrable ?_
    rw [uIcc_of_le (by linarith)]; exact hcf
  have hiP : IntervalIntegrable (fun t => P.eval t) volume a (a + h) := P.continuous.intervalIntegrable _ _
  have h1 : |(∫ t in a..(a + h), P.eval t) - ∫ t in a..(a + h), f t| ≤ δ * h := by
    rw [← intervalIntegral.integral_sub hiP hif, ← Real.norm_eq_abs]
    have := intervalIntegral.norm_integral_le_of_norm_le_const (a := a) (b := a + h) (f := fun t => P.eval t - f t) (C := δ) (fun t ht => by
      rw [uIoc_of_le (by linarith)] at ht
      rw [Real.norm_eq_abs, abs_sub_comm]
      exact hd t ⟨ht.1.le, ht.2⟩)
    rwa [add_sub_cancel_left, abs_of_nonneg hh] at this
  have h2 : |Cheb.integrate (m + 1) f a (a + h) - Cheb.integrate (m + 1) (fun t => P.eval t) a (a + h)| ≤ δ * h := by
    unfold Cheb.integrate
    rw [← mul_sub, ← Finset.sum_sub_distrib, abs_mul, add_sub_cancel_left, abs_of_nonneg (by positivity : 0 ≤ h / 2)]
    have : |∑ i, (f (h / 2 * Cheb.nodes (m + 1) i + (a + h + a) / 2) * Cheb.intWeights (m + 1) i -
        P.eval (h / 2 * Cheb.nodes (m + 1) i + (a + h + a) / 2) * Cheb.intWeights (m + 1) i)| ≤ ∑ i, δ * Cheb.intWeights (m + 1) i := by
      refine (Finset.abs_sum_le_sum_abs _ _).trans (Finset.sum_le_sum fun i _ => ?_)
      rw [← sub_mul, abs_mul, abs_of_pos (Cheb.intWeights_pos hN i)]
      refine mul_le_mul_of_nonneg_right (hd _ ?_) (Cheb.intWeights_pos hN i).le
      obtain ⟨n1, n2⟩ := Cheb.nodes_mem i
      constructor <;> nlinarith
    rw [← Finset.mul_sum, Cheb.intWeights_sum hN] at this
    calc h / 2 * _ ≤ h / 2 * (δ * 2) := mul_le_mul_of_nonneg_left this (by positivity)
      _ = δ * h := by ring
  rw [Cheb.integrate_exact hN hP] at h2
  have := (abs_add_le _ _).trans (add_le_add h2 h1)
  rw [sub_add_sub_cancel] at this
  linarith

theorem errorBound_nonneg {N : ℕ} {L M T h ε e0 : ℝ} (hM : 0 ≤ M) (hT : 0 ≤ T) (hh : 0 ≤ h) (hε : 0 ≤ ε) (he : 0 ≤ e0) : 0 ≤ errorBound N L M T h ε e0 := by
  unfold errorBound
  have := growth_nonneg N
  positivity

end PolyMPC.Colloc

namespace PolyMPC.MpcSqp
open Polynomial Set Spec Ocp Mpc Colloc

variable {d : Dims} {prec : Sqp.Precond ℝ d.VAR (d.NEQ + d.NINEQ)} {qps : Sqp.QPSolver ℝ d.VAR (d.NEQ + d.NINEQ)}

/-- `c` is Lipschitz continuous in the state, on `Ω`. -/
def CostLipschitz (d : Dims) (Ω : Set (ℕ → ℝ)) (p : ℕ → ℝ) (c : (Fin d.M → ℝ) → ℝ) (L : ℝ) : Prop :=
  ∀ x ∈ Ω, ∀ x' ∈ Ω, ∀ u B, 0 ≤ B → (∀ j < d.NX, |x j - x' j| ≤ B) → |c (joint d x u p) - c (joint d x' u p)| ≤ L * B

/-- The cost of the trajectory in `w` if its states are within `E` of those of the plant. -/
theorem cost_accurate {cb : Cbs d ℝ} (hN : 1 ≤ d.N) (hS : 1 ≤ d.S) {w : Wrap d ℝ} (hw : Reachable (chebApprox d.N) w) (ht : w.ocp.tStart < w.ocp.tStop)
    {ℓ : (Fin d.M → ℝ) → ℝ → ℝ} (hlag : ∀ z t old, cb.lag z t old = ℓ z t) {w' : Wrap d ℝ} {Ω : Set (ℕ → ℝ)} {Lc Lm Mc E : ℝ} (hE : 0 ≤ E)
    (hlc : ∀ t ∈ Icc w.ocp.tStart w.ocp.tStop, CostLipschitz d Ω (paramAt w') (fun z => ℓ z t) Lc)
    (hlm : CostLipschitz d Ω (paramAt w') (fun z => cb.mayer z w.ocp.tStop 0) Lm)
    {ν : ℕ → ℝ → ℕ → ℝ} (hν : ∀ σ < d.S, ∀ l ≤ d.N, ν σ (w.grid (σ * d.N + l)) = controlAt w' (σ * d.N + l)) {y : ℕ → ℝ → ℝ}
    (hy : ∀ k ≤ d.S * d.N, ∀ i < d.NX, |stateAt w' k i - y i (w.grid k)| ≤ E) {ℓ' : ℕ → ℝ → ℝ}
    (hr : ∀ σ < d.S, SmoothSolution 1 d.N (fun _ t => ℓ (joint d (fun j => y j t) (ν σ t) (paramAt w')) t) (fun _ => ℓ' σ) (w.grid (σ * d.N)) (w.grid (σ * d.N + d.N)) Mc)
    (hm : ∀ k ≤ d.S * d.N, stateAt w' k ∈ Ω) (hm' : ∀ t ∈ Icc w.ocp.tStart w.ocp.tStop, (fun j => y j t) ∈ Ω) :
    |cost d (chebApprox d.N) cb w.ocp w'.x - ((∑ σ ∈ Finset.range d.S, ∫ t in (w.grid (σ * d.N))..(w.grid (σ * d.N + d.N)), ℓ (joint d (fun j => y j t) (ν σ t) (paramAt w')) t) +
        cb.mayer (joint d (fun j => y j w.ocp.tStop) (ν (d.S - 1) w.ocp.tStop) (paramAt w')) w.ocp.tStop 0)|
      ≤ ((w.ocp.tStop - w.ocp.tStart) * Lc + Lm) * E +
        2 * (w.ocp.tStop - w.ocp.tStart) * ((w.ocp.tStop - w.ocp.tStart) / d.S * (Mc * ((w.ocp.tStop - w.ocp.tStart) / d.S) ^ d.N / (d.N - 1).factorial)) := by
  set t0 := w.ocp.tStart with ht0
  set tf := w.ocp.tStop with htf
  have hSr : (0 : ℝ) < d.S := by exact_mod_cast hS
  have hlen : 0 < tf - t0 := sub_pos.2 ht
  set H := (tf - t0) / d.S with hHd
  have hH : 0 < H := by positivity
  have hsy := reachable_synced hw
  have htm : ∀ s < d.S, ∀ l ≤ d.N, w.grid ((d.S - 1 - s) * d.N + (d.N - l)) = segTime d.S d.N t0 tf s l := by
    intro s hs l hl
    rw [grid_segTime hN hw (by omega : s + (d.S - 1 - s) + 1 = d.S) (by omega), show d.N - (d.N - l) = l by omega]
  have hk : ∀ s < d.S, ∀ l ≤ d.N, (d.S - 1 - s) * d.N + (d.N - l) + (s * d.N + l) = d.S * d.N := by
    intro s hs l hl
    obtain ⟨σ, hσ⟩ : ∃ σ, s + σ + 1 = d.S := ⟨d.S - 1 - s, by omega⟩
    rw [← hσ, show s + σ + 1 - 1 - s = σ by omega]
    have : (s + σ + 1) * d.N = s * d.N + σ * d.N + d.N := by ring
    omega
  have htime : ∀ s < d.S, ∀ l ≤ d.N, w.ocp.time (s * d.N + l) = segTime d.S d.N t0 tf s l := by
    intro s hs l hl
    rw [← htm s hs l hl, hsy.grid]
    congr 1
    have := hk s hs l hl
    omega
  have hin : ∀ s < d.S, ∀ l, segTime d.S d.N t0 tf s l ∈ Icc t0 tf := by
    intro s hs l
    have hts := seg_mem (N := d.N) hS ht s l
    have hs' : (s : ℝ) + 1 ≤ d.S := by exact_mod_cast hs
    have hs0 : (0 : ℝ) ≤ s := Nat.cast_nonneg s
    have hTS : d.S * ((tf - t0) / d.S) = tf - t0 := by field_simp
    have hst : segStart d.S t0 tf s = tf - (s + 1) * ((tf - t0) / d.S) := rfl
    rw [hst] at hts
    constructor <;> nlinarith [hts.1, hts.2]
  -- the trajectory at the nodes
  have hnode : ∀ s < d.S, ∀ l ≤ d.N, node d w'.x (s * d.N + l) = joint d (stateAt w' ((d.S - 1 - s) * d.N + (d.N - l))) (controlAt w' ((d.S - 1 - s) * d.N + (d.N - l))) (paramAt w') := by
    intro s hs l hl
    rw [← point_joint]
    unfold point
    congr 1
    have := hk s hs l hl
    omega
  have hctrl : ∀ s < d.S, ∀ l ≤ d.N, controlAt w' ((d.S - 1 - s) * d.N + (d.N - l)) = ν (d.S - 1 - s) (segTime d.S d.N t0 tf s l) := by
    intro s hs l hl
    rw [← htm s hs l hl]
    exact (hν _ (by omega) _ (by omega)).symm
  have hstate : ∀ s < d.S, ∀ l ≤ d.N, ∀ j < d.NX, |stateAt w' ((d.S - 1 - s) * d.N + (d.N - l)) j - y j (segTime d.S d.N t0 tf s l)| ≤ E := by
    intro s hs l hl j hj
    rw [← htm s hs l hl]
    exact hy _ (by have := hk s hs l hl; omega) j hj
  rw [cost_quadrature d _ cb w.ocp w'.x (fun k => ℓ (node d w'.x k) (w.ocp.time k)) (fun k _ old => hlag _ _ _)]
  -- running cost, in the order of the segments
  let F : ℕ → ℝ → ℝ := fun s t => ℓ (joint d (fun j => y j t) (ν (d.S - 1 - s) t) (paramAt w')) t
  have hflip : (∑ σ ∈ Finset.range d.S, ∫ t in (w.grid (σ * d.N))..(w.grid (σ * d.N + d.N)), ℓ (joint d (fun j => y j t) (ν σ t) (paramAt w')) t)
      = ∑ s ∈ Finset.range d.S, ∫ t in (segStart d.S t0 tf s)..(segStart d.S t0 tf s + H), F s t := by
    rw [← Finset.sum_range_reflect]
    refine Finset.sum_congr rfl fun s hs => ?_
    have hs' := Finset.mem_range.1 hs
    have g1 := htm s hs' d.N le_rfl
    have g2 := htm s hs' 0 (Nat.zero_le _)
    rw [Nat.sub_self, Nat.add_zero, segStart_eq hN] at g1
    have e : segTime d.S d.N t0 tf s 0 = segStart d.S t0 tf s + H := by
      rw [CasCheb.segTime_eq, (CasCheb.points_ends hN).1]; unfold segStart; ring
    rw [Nat.sub_zero, e] at g2
    rw [g1, g2]
  have hseg : ∀ s < d.S, |(∑ j ∈ Finset.range (d.N + 1), (w.ocp.tStop - w.ocp.tStart) / (2 * d.S) * (chebApprox d.N).w j * ℓ (node d w'.x (s * d.N + j)) (w.ocp.time (s * d.N + j)))
      - ∫ t in (segStart d.S t0 tf s)..(segStart d.S t0 tf s + H), F s t| ≤ H * (Lc * E) + 2 * H * (H * (Mc * H ^ d.N / (d.N - 1).factorial)) := by
    intro s hs
    have hq : SmoothSolution 1 d.N (fun _ => F s) (fun _ => ℓ' (d.S - 1 - s)) (segStart d.S t0 tf s) (segStart d.S t0 tf s + H) Mc := by
      have := hr (d.S - 1 - s) (by omega)
      have g1 := htm s hs d.N le_rfl
      have g2 := htm s hs 0 (Nat.zero_le _)
      rw [Nat.sub_self, Nat.add_zero, segStart_eq hN] at g1
      have e : segTime d.S d.N t0 tf s 0 = segStart d.S t0 tf s + H := by
        rw [CasCheb.segTime_eq, (CasCheb.points_ends hN).1]; unfold segStart; ring
      rw [Nat.sub_zero, e] at g2
      rw [g1, g2] at this
      exact this
    have h1 := quadrature_accurate hN hH.le hq
    have h2 : |(∑ j ∈ Finset.range (d.N + 1), (w.ocp.tStop - w.ocp.tStart) / (2 * d.S) * (chebApprox d.N).w j * ℓ (node d w'.x (s * d.N + j)) (w.ocp.time (s * d.N + j)))
        - Cheb.integrate d.N (F s) (segStart d.S t0 tf s) (segStart d.S t0 tf s + H)| ≤ H * (Lc * E) := by
      unfold Cheb.integrate
      rw [Finset.sum_range, Finset.mul_sum, ← Finset.sum_sub_distrib, add_sub_cancel_left]
      refine (Finset.abs_sum_le_sum_abs _ _).trans ?_
      have hb : ∀ j : Fin (d.N + 1), |(w.ocp.tStop - w.ocp.tStart) / (2 * d.S) * (chebApprox d.N).w j * ℓ (node d w'.x (s * d.N + j)) (w.ocp.time (s * d.N + j))
          - H / 2 * (F s (H / 2 * Cheb.nodes d.N j + (segStart d.S t0 tf s + H + segStart d.S t0 tf s) / 2) * Cheb.intWeights d.N j)| ≤ H / 2 * (Lc * E) * Cheb.intWeights d.N j := by
        intro j
        have hj : j.val ≤ d.N := by omega
        have ep : H / 2 * Cheb.nodes d.N j + (segStart d.S t0 tf s + H + segStart d.S t0 tf s) / 2 = segTime d.S d.N t0 tf s j := by
          rw [CasCheb.segTime_eq, ← CasCheb.points_eq]; unfold segStart; ring
        have ew : (w.ocp.tStop - w.ocp.tStart) / (2 * d.S) = H / 2 := by
          show (tf - t0) / (2 * d.S) = H / 2
          rw [hHd]; field_simp
        rw [ep, cheb_w, ew, htime s hs j hj, hnode s hs j hj, hctrl s hs j hj]
        have hl := hlc _ (hin s hs j) _ (hm ((d.S - 1 - s) * d.N + (d.N - j)) (by have := hk s hs j hj; omega)) _ (hm' _ (hin s hs j))
          (ν (d.S - 1 - s) (segTime d.S d.N t0 tf s j)) E hE (hstate s hs j hj)
        have e3 : ∀ A B : ℝ, H / 2 * Cheb.intWeights d.N j * A - H / 2 * (B * Cheb.intWeights d.N j) = H / 2 * Cheb.intWeights d.N j * (A - B) := fun A B => by ring
        have hwp : 0 ≤ H / 2 * Cheb.intWeights d.N j := mul_nonneg (by positivity) (Cheb.intWeights_pos hN j).le
        rw [e3, abs_mul, abs_of_nonneg hwp]
        calc _ ≤ H / 2 * Cheb.intWeights d.N j * (Lc * E) := mul_le_mul_of_nonneg_left hl hwp
          _ = _ := by ring
      refine (Finset.sum_le_sum fun j _ => hb j).trans ?_
      rw [← Finset.mul_sum, Cheb.intWeights_sum hN]
      exact le_of_eq (by ring)
    have := (abs_add_le _ _).trans (add_le_add h2 h1)
    rwa [sub_add_sub_cancel] at this
  have hrun : |(∑ s ∈ Finset.range d.S, ∑ j ∈ Finset.range (d.N + 1), (w.ocp.tStop - w.ocp.tStart) / (2 * d.S) * (chebApprox d.N).w j * ℓ (node d w'.x (s * d.N + j)) (w.ocp.time (s * d.N + j)))
      - ∑ σ ∈ Finset.range d.S, ∫ t in (w.grid (σ * d.N))..(w.grid (σ * d.N + d.N)), ℓ (joint d (fun j => y j t) (ν σ t) (paramAt w')) t|
      ≤ (tf - t0) * (Lc * E) + 2 * (tf - t0) * (H * (Mc * H ^ d.N / (d.N - 1).factorial)) := by
    rw [hflip, ← Finset.sum_sub_distrib]
    refine (Finset.abs_sum_le_sum_abs _ _).trans ((Finset.sum_le_sum fun s hs => hseg s (Finset.mem_range.1 hs)).trans ?_)
    rw [Finset.sum_const, Finset.card_range, nsmul_eq_mul]
    have e : (d.S : ℝ) * H = tf - t0 := by rw [hHd]; field_simp
    refine le_of_eq ?_
    rw [← e]; ring
  -- terminal cost
  have hmay : |cb.mayer (node d w'.x 0) (w.ocp.time 0) 0 - cb.mayer (joint d (fun j => y j tf) (ν (d.S - 1) tf) (paramAt w')) tf 0| ≤ Lm * E := by
    have e0 : segTime d.S d.N t0 tf 0 0 = tf := by
      rw [CasCheb.segTime_eq, (CasCheb.points_ends hN).1]; push_cast; ring
    have h1 := hnode 0 (by omega) 0 (Nat.zero_le _)
    have h2 := htime 0 (by omega) 0 (Nat.zero_le _)
    have h3 := hctrl 0 (by omega) 0 (Nat.zero_le _)
    rw [Nat.zero_mul, Nat.zero_add] at h1 h2
    rw [h1, h2, h3, e0, Nat.sub_zero]
    have h4 := hstate 0 (by omega) 0 (Nat.zero_le _)
    rw [e0] at h4
    exact hlm _ (hm _ (by have := hk 0 (by omega) 0 (Nat.zero_le _); simp only [Nat.sub_zero] at this ⊢; omega)) _ (hm' _ ⟨ht.le, le_rfl⟩) _ E hE h4
  rw [add_sub_add_comm]
  refine (abs_add_le _ _).trans ((add_le_add hrun hmay).trans (le_of_eq ?_))
  ring

/-- **C209.** The cost of the point that a solve ending with `SOLVED` returns is the cost of applying the returned controls to the plant, with any signal that is smooth on each segment and has the returned values at its nodes:
the integral of the running cost along the exact solution, plus the terminal cost. The error is that of the states (C183) times the Lipschitz constants of the costs, plus a quadrature error of order `N + 1` in the length of the segments. -/
theorem solved_cost_accurate [NeZero d.VAR] {cb : Cbs d ℝ} (hN : 1 ≤ d.N) (hS : 1 ≤ d.S)
    (hf : ∀ z t old old', ∀ i < d.NX, cb.dyn z t old i = cb.dyn z t old' i) (hg : ∀ z t old old', ∀ i < d.NG, cb.ineq z t old i = cb.ineq z t old' i)
    {ℓ : (Fin d.M → ℝ) → ℝ → ℝ} (hlag : ∀ z t old, cb.lag z t old = ℓ z t)
    {w : Wrap d ℝ} (hw : Reachable (chebApprox d.N) w) (ht : w.ocp.tStart < w.ocp.tStop) {sc : Scratch d} {env : Sqp.Env ℝ d.VAR d.NEQ d.NINEQ prec qps}
    (hp : env.prob = problem (chebApprox d.N) cb w.ocp sc) (hb : env.bd = bounds w) {st r : Sqp.State ℝ d.VAR d.NEQ d.NINEQ prec qps}
    (h : Sqp.solve env (start w st) = some r) (hs : r.status = .SOLVED) (hε : 0 ≤ env.cfg.epsPrim)
    {Ω : Set (ℕ → ℝ)} {L M Lc Lm Mc e0 : ℝ} (hL0 : 0 ≤ L) (hM0 : 0 ≤ M) (he0 : 0 ≤ e0)
    (hl : ∀ t ∈ Icc w.ocp.tStart w.ocp.tStop, LipschitzIn d.NX Ω (rhs cb (paramAt (finish w r)) t) L)
    (hlc : ∀ t ∈ Icc w.ocp.tStart w.ocp.tStop, CostLipschitz d Ω (paramAt (finish w r)) (fun z => ℓ z t) Lc)
    (hlm : CostLipschitz d Ω (paramAt (finish w r)) (fun z => cb.mayer z w.ocp.tStop 0) Lm)
    (hz : (w.ocp.tStop - w.ocp.tStart) / d.S * growth d.N * L ≤ 1 / 2)
    {ν : ℕ → ℝ → ℕ → ℝ} (hν : ∀ σ < d.S, ∀ l ≤ d.N, ν σ (w.grid (σ * d.N + l)) = controlAt (finish w r) (σ * d.N + l)) {y : ℕ → ℝ → ℝ}
    (hy : ∀ σ < d.S, SmoothSolution d.NX d.N y (fun i t => rhs cb (paramAt (finish w r)) t (fun j => y j t) (ν σ t) i) (w.grid (σ * d.N)) (w.grid (σ * d.N + d.N)) M) {ℓ' : ℕ → ℝ → ℝ}
    (hr : ∀ σ < d.S, SmoothSolution 1 d.N (fun _ t => ℓ (joint d (fun j => y j t) (ν σ t) (paramAt (finish w r))) t) (fun _ => ℓ' σ) (w.grid (σ * d.N)) (w.grid (σ * d.N + d.N)) Mc)
    (h0 : ∀ i < d.NX, |stateAt (finish w r) 0 i - y i w.ocp.tStart| ≤ e0)
    (hm : ∀ k ≤ d.S * d.N, stateAt (finish w r) k ∈ Ω) (hm' : ∀ t ∈ Icc w.ocp.tStart w.ocp.tStop, (fun j => y j t) ∈ Ω) :
    |env.prob.cost r.x - ((∑ σ ∈ Finset.range d.S, ∫ t in (w.grid (σ * d.N))..(w.grid (σ * d.N + d.N)), ℓ (joint d (fun j => y j t) (ν σ t) (paramAt (finish w r))) t) +
        cb.mayer (joint d (fun j => y j w.ocp.tStop) (ν (d.S - 1) w.ocp.tStop) (paramAt (finish w r))) w.ocp.tStop 0)|
      ≤ ((w.ocp.tStop - w.ocp.tStart) * Lc + Lm) *
          errorBound d.N L M (w.ocp.tStop - w.ocp.tStart) ((w.ocp.tStop - w.ocp.tStart) / d.S) (2 * d.S * env.cfg.epsPrim / (w.ocp.tStop - w.ocp.tStart)) e0 +
        2 * (w.ocp.tStop - w.ocp.tStart) * ((w.ocp.tStop - w.ocp.tStart) / d.S * (Mc * ((w.ocp.tStop - w.ocp.tStart) / d.S) ^ d.N / (d.N - 1).factorial)) := by
  have hlen : 0 < w.ocp.tStop - w.ocp.tStart := sub_pos.2 ht
  have hstates := (solved_accurate hN hS hf hg hw ht hp hb h hs hL0 hM0 he0 hl hz (fun σ hσ l hl _ => hν σ hσ l hl) hy h0 hm hm').1
  have := cost_accurate hN hS hw ht hlag (errorBound_nonneg hM0 hlen.le (by positivity) (by positivity) he0) hlc hlm hν hstates hr hm hm'
  rw [hp]
  exact this

/-- **C209**, for the number that `cost()` returns: by C208 it may belong to a point near the returned one, so the variation `δ` of the discretised cost over that distance is added. -/
theorem reported_cost_accurate [NeZero d.VAR] {env : Sqp.Env ℝ d.VAR d.NEQ d.NINEQ prec qps} {w : Wrap d ℝ} {st r : Sqp.State ℝ d.VAR d.NEQ d.NINEQ prec qps}
    {eps c B δ : ℝ} (hc : |env.prob.cost r.x - c| ≤ B) (h : Sqp.solve env (start w st) = some r) (hs : r.status = .SOLVED)
    (hls : env.stepSize = Sqp.lineSearch eps env.cfg env.prob env.bd) (h0 : 0 < env.cfg.tau) (h1 : env.cfg.tau ≤ 1) (hl : 1 < env.cfg.lineSearchMaxIter)
    (hδ : ∀ z, (∀ i, |z i - r.x i| ≤ (1 / env.cfg.tau - 1) * env.cfg.epsPrim) → |env.prob.cost z - env.prob.cost r.x| ≤ δ) : |r.cost - c| ≤ B + δ := by
  obtain ⟨z, hz, hzr⟩ := Sqp.solved_cost hls h hs h0 h1 hl
  rw [hz]
  have := (abs_add_le _ _).trans (add_le_add (hδ z hzr) hc)
  rw [sub_add_sub_cancel] at this
  linarith

/-- **C209**, instance: the plant `x' = -x` with running cost `x` on `[0, 1/8]`, in `S` segments of degree 2. The cost of a `SOLVED` solve is within `3 S eps_prim + 1 / (200 S²)` of `1 - exp(-1/8)`, if the first state is 1. -/
example (S : ℕ) (hS : 1 ≤ S) {d : Dims} (hd : d = ⟨1, 1, 0, 0, S, 2⟩) [NeZero d.VAR] {prec : Sqp.Precond ℝ d.VAR (d.NEQ + d.NINEQ)} {qps : Sqp.QPSolver ℝ d.VAR (d.NEQ + d.NINEQ)} {cb : Cbs d ℝ}
    (hdyn : ∀ x u p t old i, cb.dyn (joint d x u p) t old i = -x i) {ℓ : (Fin d.M → ℝ) → ℝ → ℝ} (hlag : ∀ z t old, cb.lag z t old = ℓ z t) (hℓ : ∀ x u p t, ℓ (joint d x u p) t = x 0)
    (hmay : ∀ z t, cb.mayer z t 0 = 0) (hf : ∀ z t old old', ∀ i < d.NX, cb.dyn z t old i = cb.dyn z t old' i) {w : Wrap d ℝ} (hw : Reachable (chebApprox d.N) w) (h0 : w.ocp.tStart = 0) (h1 : w.ocp.tStop = 1 / 8)
    {sc : Scratch d} {env : Sqp.Env ℝ d.VAR d.NEQ d.NINEQ prec qps} (he : 0 ≤ env.cfg.epsPrim)
    (hp : env.prob = problem (chebApprox d.N) cb w.ocp sc) (hb : env.bd = bounds w) {st r : Sqp.State ℝ d.VAR d.NEQ d.NINEQ prec qps}
    (h : Sqp.solve env (start w st) = some r) (hs : r.status = .SOLVED) (hx : stateAt (finish w r) 0 0 = 1)
    {ν : ℕ → ℝ → ℕ → ℝ} (hν : ∀ σ < d.S, ∀ l ≤ d.N, ν σ (w.grid (σ * d.N + l)) = controlAt (finish w r) (σ * d.N + l)) :
    |env.prob.cost r.x - (1 - Real.exp (-1 / 8))| ≤ 3 * S * env.cfg.epsPrim + 1 / 200 / S ^ 2 := by
  have hS0 : (0 : ℝ) < S := by exact_mod_cast hS
  have hS1 : (1 : ℝ) ≤ S := by exact_mod_cast hS
  have dX : d.NX = 1 := by rw [hd]
  have dG : d.NG = 0 := by rw [hd]
  have dN : d.N = 2 := by rw [hd]
  have dS : d.S = S := by rw [hd]
  have hrhs : ∀ p t x u i, rhs cb p t x u i = -x i := fun p t x u i => hdyn x u p t _ i
  have hN : 1 ≤ d.N := by omega
  have hsm : ∀ σ < d.S, SmoothSolution 1 2 (fun _ t => Real.exp (-1 * t)) (fun _ t => -Real.exp (-1 * t)) (w.grid (σ * d.N)) (w.grid (σ * d.N + d.N)) 1 := by
    intro σ hσ
    obtain ⟨s, hs'⟩ : ∃ s, s + σ + 1 = d.S := ⟨d.S - 1 - σ, by omega⟩
    have g1 := grid_segTime hN hw hs' (Nat.zero_le _)
    have g2 := grid_segTime hN hw hs' (le_refl d.N)
    rw [Nat.add_zero, Nat.sub_zero, segStart_eq hN, h0, h1] at g1
    have e : segTime d.S d.N 0 (1 / 8) s 0 = segStart d.S 0 (1 / 8) s + 1 / 8 / d.S := by
      rw [CasCheb.segTime_eq, (CasCheb.points_ends hN).1]; unfold segStart; ring
    rw [Nat.sub_self, h0, h1, e] at g2
    rw [g1, g2]
    exact smooth_segments (by omega) (by norm_num) (PsOde.decay_smooth (by norm_num)) (by omega)
  have key := solved_cost_accurate (Ω := univ) (L := 1) (M := 1) (Lc := 1) (Lm := 0) (Mc := 1) (e0 := 0) (y := fun _ t => Real.exp (-1 * t)) (ℓ' := fun _ t => -Real.exp (-1 * t)) hN (by omega) hf
    (fun _ _ _ _ i hi => absurd hi (by omega)) hlag hw (by rw [h0, h1]; norm_num) hp hb h hs he zero_le_one zero_le_one le_rfl
    (fun t _ x _ x' _ u B hB i hi => by
      rw [hrhs, hrhs, one_mul, show -x i - -x' i = -(x i - x' i) by ring, abs_neg]
      exact hB i hi)
    (fun t _ x _ x' _ u B _ hB => by
      show |ℓ _ t - ℓ _ t| ≤ _
      rw [hℓ, hℓ, one_mul]; exact hB 0 (by omega))
    (fun x _ x' _ u B _ _ => by
      show |cb.mayer _ _ 0 - cb.mayer _ _ 0| ≤ _
      rw [hmay, hmay]; simp)
    (by rw [dN, dS, h0, h1, PsOde.growth_two, sub_zero, mul_one, div_div, div_mul_eq_mul_div, div_le_div_iff₀ (by positivity) (by norm_num)]; linarith)
    hν (fun σ hσ => by
      rw [dX, dN]
      simp only [hrhs]
      have := hsm σ hσ
      rwa [dN] at this)
    (fun σ hσ => by
      simp only [hℓ]
      have := hsm σ hσ
      rw [dN] at this ⊢
      exact this)
    (fun i hi => by
      have : i = 0 := by omega
      rw [this, hx, h0]; simp)
    (fun _ _ => mem_univ _) (fun _ _ => mem_univ _)
  simp only [hℓ, hmay, add_zero] at key
  have hint : (∑ σ ∈ Finset.range d.S, ∫ t in (w.grid (σ * d.N))..(w.grid (σ * d.N + d.N)), Real.exp (-1 * t)) = 1 - Real.exp (-1 / 8) := by
    have e1 : ∀ σ, σ * d.N + d.N = (σ + 1) * d.N := fun σ => by ring
    simp only [e1]
    have hcont : Continuous fun t : ℝ => Real.exp (-1 * t) := by fun_prop
    rw [intervalIntegral.sum_integral_adjacent_intervals (f := fun t : ℝ => Real.exp (-1 * t)) (a := fun σ => w.grid (σ * d.N)) (fun k _ => hcont.intervalIntegrable _ _)]
    have hsy := reachable_synced hw
    obtain ⟨o, ho⟩ := hsy.time
    obtain ⟨j0, j1, -⟩ := time_junctions d _ (cheb_good hN) (by omega : 1 ≤ d.S) o w.ocp.tStart w.ocp.tStop
    have ga : w.grid (0 * d.N) = 0 := by
      rw [hsy.grid, ho, Nat.zero_mul, Nat.sub_zero, ← nn_eq, j1, h0]
    have gb : w.grid (d.S * d.N) = 1 / 8 := by
      rw [hsy.grid, ho, Nat.sub_self, j0, h1]
    rw [ga, gb]
    have hF : ∀ t ∈ uIcc (0 : ℝ) (1 / 8), HasDerivAt (fun t => -Real.exp (-1 * t)) (Real.exp (-1 * t)) t := by
      intro t _
      have := ((hasDerivAt_id t).const_mul (-1)).exp.neg
      refine HasDerivAt.congr_deriv this ?_
      simp
    rw [intervalIntegral.integral_eq_sub_of_hasDerivAt hF (hcont.intervalIntegrable _ _)]
    norm_num
    ring
  rw [hint] at key
  refine key.trans ?_
  rw [dN, dS, h0, h1]
  generalize env.cfg.epsPrim = ε at he
  unfold errorBound
  rw [PsOde.growth_two]
  have e1 : Real.exp (2 * 4 * 1 * (1 / 8 - 0)) ≤ 3 := by
    rw [show (2 * 4 * 1 * (1 / 8 - 0) : ℝ) = 1 by norm_num]
    linarith [Real.exp_one_lt_d9]
  have e2 : (0 + (1 / 8 - 0) * (4 * (2 * (S : ℝ) * ε / (1 / 8 - 0)) + (4 + 1) * (1 * ((1 / 8 - 0) / (S : ℝ)) ^ 2 / ((2 - 1).factorial : ℝ)))) = 8 * S * ε + 5 / 512 / (S : ℝ) ^ 2 := by
    norm_num
    field_simp
    ring
  rw [e2]
  have e3 : 2 * (1 / 8 - 0 : ℝ) * ((1 / 8 - 0) / S * (1 * ((1 / 8 - 0) / S) ^ 2 / ((2 - 1).factorial : ℝ))) = 1 / 2048 / (S : ℝ) ^ 3 := by
    norm_num
    field_simp
    norm_num
  rw [e3]
  have e4 : (1 / 2048 : ℝ) / (S : ℝ) ^ 3 ≤ 1 / 2048 / (S : ℝ) ^ 2 := by
    refine div_le_div_of_nonneg_left (by norm_num) (by positivity) ?_
    exact pow_le_pow_right₀ hS1 (by norm_num)
  have e5 : ((1 / 8 - 0) * 1 + 0) * (Real.exp (2 * 4 * 1 * (1 / 8 - 0)) * (8 * S * ε + 5 / 512 / (S : ℝ) ^ 2)) ≤ ((1 / 8 - 0) * 1 + 0) * (3 * (8 * S * ε + 5 / 512 / (S : ℝ) ^ 2)) := by gcongr
  have e6 : (17 / 4096 : ℝ) / (S : ℝ) ^ 2 ≤ 1 / 200 / (S : ℝ) ^ 2 := div_le_div_of_nonneg_right (by norm_num) (by positivity)
  have e7 : ((1 / 8 - 0) * 1 + 0) * (3 * (8 * S * ε + 5 / 512 / (S : ℝ) ^ 2)) = 3 * S * ε + 15 / 4096 / (S : ℝ) ^ 2 := by ring
  have e8 : (17 / 4096 : ℝ) / (S : ℝ) ^ 2 = 15 / 4096 / (S : ℝ) ^ 2 + 1 / 2048 / (S : ℝ) ^ 2 := by ring
  linarith

end PolyMPC.MpcSqp
