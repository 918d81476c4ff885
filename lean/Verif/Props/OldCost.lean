import Verif.Props.OldColloc
import Verif.Props.OcpCost
import Verif.Props.Nlp

/-!
# The older collocation classes: cost and its derivatives (C223)
-/

namespace PolyMPC.OldColloc
open AD Spec Ocp Filter Topology

set_option linter.unusedSectionVars false
set_option linter.unusedVariables false

variable (d : Dims) (cb : CostCbs d ℝ) (L : (Fin (MU d) → ℝ) → (ℕ → ℝ) → ℝ) (m : (Fin d.NX → ℝ) → ℝ) (A : Approx ℝ)

theorem ts_eq (t0 tf : ℝ) : tScale d t0 tf = (tf - t0) / (2 * d.S) := by unfold tScale; push_cast; rfl

theorem eval_nodes (hc : OldCost cb L m) (var : ℕ → ℝ) (t0 tf : ℝ) :
    (Cost.mk0 d A cb).eval d var t0 tf = some (m (headX d var)
      + ∑ it ∈ Finset.range d.NN, jf d it * (tScale d t0 tf * A.w (it % d.N) * L (nodeXU d var it) (par d var))) := by
  rw [eval_closed d (Cost.mk0 d A cb) A.w rfl var t0 tf (fun k => L (nodeXU d var k) (par d var)) fun k _ old => hc.lag _ _ old]
  congr 2
  exact hc.mayer _ _

/-- **C223.** The value returned by a default constructed `cost_collocation`: terminal cost at the states of the first node, plus the
composite quadrature of the running cost, plus a term that vanishes iff the first and the last weight agree (or the running cost at the
segment ends sums to zero). -/
theorem old_cost_value (hc : OldCost cb L m) (hS : 1 ≤ d.S) (hN : 1 ≤ d.N) (var : ℕ → ℝ) (t0 tf : ℝ) :
    (Cost.mk0 d A cb).eval d var t0 tf = some (m (headX d var)
      + ∑ s ∈ Finset.range d.S, ∑ j ∈ Finset.range (d.N + 1), (tf - t0) / (2 * d.S) * A.w j * L (nodeXU d var (s * d.N + j)) (par d var)
      + (tf - t0) / (2 * d.S) * (A.w 0 - A.w d.N) * ∑ s ∈ Finset.range d.S, L (nodeXU d var ((s + 1) * d.N)) (par d var)) := by
  rw [eval_nodes d cb L m A hc]
  congr 1
  have h := quad_sum d hS hN A.w fun k => L (nodeXU d var k) (par d var)
  have e : ∑ it ∈ Finset.range d.NN, jf d it * (tScale d t0 tf * A.w (it % d.N) * L (nodeXU d var it) (par d var))
      = tScale d t0 tf * ∑ it ∈ Finset.range d.NN, jf d it * (A.w (it % d.N) * L (nodeXU d var it) (par d var)) := by
    rw [Finset.mul_sum]
    exact Finset.sum_congr rfl fun it _ => by ring
  rw [e, h, ts_eq, mul_add, Finset.mul_sum, add_assoc]
  congr 1
  congr 1
  · refine Finset.sum_congr rfl fun s _ => ?_
    rw [Finset.mul_sum]
    exact Finset.sum_congr rfl fun j _ => by ring
  · ring

theorem cheb_w_ends {N : ℕ} (hN : 1 ≤ N) : (chebApprox N).w 0 = (chebApprox N).w N := by
  have h := Cheb.intWeights_rev hN (Fin.last N)
  rw [Fin.rev_last] at h
  have h0 := cheb_w N 0
  have h1 := cheb_w N (Fin.last N)
  rw [Fin.val_last] at h1
  rw [h1, ← h, ← h0]
  rfl

/-- **C223.** With the Chebyshev scheme, the only one that has the weights this class asks for, the value is the cost that `ContinuousOCP`
computes for the same functions (C42), for every number of segments and every order. -/
theorem old_cost_eq_ocp (hc : OldCost cb L m) (hS : 1 ≤ d.S) (hN : 1 ≤ d.N) (cb' : Cbs d ℝ) (o : Ocp.Obj d ℝ)
    (hl : ∀ z t old, cb'.lag z t old = L (xuOf d z) (pOf d z)) (hm : ∀ z t, cb'.mayer z t 0 = m (statesOf d (xuOf d z)))
    (hp : ∀ z p p', (∀ q < d.NP, p q = p' q) → L z p = L z p') (var : ℕ → ℝ) :
    (Cost.mk0 d (chebApprox d.N) cb).eval d var o.tStart o.tStop = some (cost d (chebApprox d.N) cb' o var) := by
  rw [old_cost_value d cb L m _ hc hS hN, cheb_w_ends hN, sub_self, mul_zero, zero_mul, add_zero]
  have hxu : ∀ k, xuOf d (node d var k) = nodeXU d var k := by
    intro k
    funext q
    have hq := q.2
    unfold MU at hq
    unfold xuOf node nodeXU
    by_cases h : q.val < d.NX
    · simp only [h, if_true]
    · simp only [h, if_false, if_pos hq]
  have hpp : ∀ k, ∀ q < d.NP, pOf d (node d var k) q = par d var q := by
    intro k q hq
    unfold pOf par node
    rw [dif_pos hq]
    simp only [show ¬ d.NX + d.NU + q < d.NX by omega, show ¬ d.NX + d.NU + q < d.NX + d.NU by omega, if_false]
    congr 1; omega
  rw [cost_quadrature d _ cb' o var (fun k => L (nodeXU d var k) (par d var)) fun k hk old => by rw [hl, hxu]; exact hp _ _ _ (hpp k)]
  rw [hm, hxu, add_comm]
  congr 3
  funext i
  unfold statesOf nodeXU headX
  rw [if_pos i.2, Nat.zero_mul, Nat.zero_add]

/-- **C223.** An object constructed from two functors has no weights and no derivative seeds: all three functions read uninitialised storage. -/
theorem cost_from_functors (cb1 : CostCbs d ℝ) (var : ℕ → ℝ) (t0 tf : ℝ) (a0 m0 : Dual (MU d) ℝ) (a2 m2 : Dual (MU d) (Dual (MU d) ℝ)) :
    (Cost.mk1 d cb cb1).eval d var t0 tf = none ∧ (Cost.mk1 d cb cb1).valueGradient d var t0 tf a0 m0 = none ∧
    (Cost.mk1 d cb cb1).valueGradientHessian d var t0 tf a2 m2 = none := ⟨rfl, rfl, rfl⟩

/-! ### Derivatives of the terminal cost -/

theorem mayer_grad_zero {z : Fin (MU d) → ℝ} {u : Fin (MU d) → ℝ} (h : IsGradient (fun z => m (statesOf d z)) u z) {i : Fin (MU d)} (hi : d.NX ≤ i.val) :
    u i = 0 := by
  have hl : HasDerivAt (fun t : ℝ => z + t • (Pi.single i 1 : Fin (MU d) → ℝ)) (Pi.single i 1) 0 := by
    simpa using ((hasDerivAt_id (0 : ℝ)).smul_const (Pi.single i 1 : Fin (MU d) → ℝ)).const_add z
  have h' : HasFDerivAt (fun z => m (statesOf d z)) (gradMap u) ((fun t : ℝ => z + t • (Pi.single i 1 : Fin (MU d) → ℝ)) 0) := by
    simp only [zero_smul, add_zero]; exact h
  have h1 := HasFDerivAt.comp_hasDerivAt (0 : ℝ) h' hl
  have e : ((fun z => m (statesOf d z)) ∘ fun t : ℝ => z + t • (Pi.single i 1 : Fin (MU d) → ℝ)) = fun _ => m (statesOf d z) := by
    funext t
    show m _ = m _
    congr 1
    funext j
    unfold statesOf
    have : (⟨j.val, lt_of_lt_of_le j.2 (Nat.le_add_right _ _)⟩ : Fin (MU d)) ≠ i := by
      intro h; have := congrArg Fin.val h; simp at this; have := j.2; omega
    simp [this]
  rw [e] at h1
  have := h1.unique (hasDerivAt_const (0 : ℝ) (m (statesOf d z)))
  simpa [gradMap_apply, Pi.single_apply] using this

theorem mayer_hess_zero {z : Fin (MU d) → ℝ} {H : Fin (MU d) → Fin (MU d) → ℝ} (h : IsHessian (fun z => m (statesOf d z)) H z) {i : Fin (MU d)}
    (hi : d.NX ≤ i.val) (r : Fin (MU d)) : H r i = 0 ∧ H i r = 0 := by
  have key : ∀ r, H r i = 0 := by
    intro r
    obtain ⟨g, hg, hH⟩ := h
    have hz : (fun z => g z i) =ᶠ[𝓝 z] fun _ => 0 := by
      filter_upwards [hg] with y hy using mayer_grad_zero d m hy hi
    have h1 : HasFDerivAt (fun z => g z i) (0 : (Fin (MU d) → ℝ) →L[ℝ] ℝ) z := (hasFDerivAt_const (0 : ℝ) z).congr_of_eventuallyEq hz
    have h2 : gradMap (fun r => H r i) = 0 := HasFDerivAt.unique (hH i) h1
    have := congrArg (fun l : (Fin (MU d) → ℝ) →L[ℝ] ℝ => l (Pi.single r 1)) h2
    simpa [gradMap_apply, Pi.single_apply] using this
  exact ⟨key r, by rw [h.symm i r]; exact key r⟩

theorem derAt_ge {n : ℕ} (a : Dual n ℝ) {c : ℕ} (h : ∀ i : Fin n, i.val = c → a.der i = 0) : derAt a c = 0 := by
  unfold derAt
  by_cases hc : c < n
  · rw [dif_pos hc]; exact h ⟨c, hc⟩ rfl
  · rw [dif_neg hc]

theorem zero_lt : 0 < d.NN := by unfold Dims.NN; omega

theorem xuIdx_zero {i : ℕ} (h : i < d.NX) : xuIdx d 0 i = i := by unfold xuIdx; rw [if_pos h]; omega

/-- The statement `cost_gradient.head<NX + NU>() += …` adds the derivatives of the terminal cost where they belong, because those with respect to
the controls vanish. -/
theorem mayer_head (g : ℕ → ℝ) (hg : ∀ i, d.NX ≤ i → g i = 0) (c : ℕ) : (if c < MU d then g c else 0) = scat d 0 g c := by
  by_cases hc : c < d.NX
  · rw [if_pos (by unfold MU; omega)]
    conv_rhs => rw [← xuIdx_zero d hc]
    rw [scat_at d g (zero_lt d) (by unfold MU; omega)]
  · have h1 : scat d 0 g c = 0 := by
      refine Finset.sum_eq_zero fun i hi => ?_
      by_cases h : xuIdx d 0 i = c
      · rw [if_pos h]
        by_cases h' : i < d.NX
        · rw [xuIdx_zero d h'] at h; omega
        · exact hg i (by omega)
      · rw [if_neg h]
    rw [h1, hg c (by omega), ite_self]

theorem mayer_head2 (h : ℕ → ℕ → ℝ) (h1 : ∀ i j, d.NX ≤ i → h i j = 0) (h2 : ∀ i j, d.NX ≤ j → h i j = 0) (r c : ℕ) :
    (if r < MU d ∧ c < MU d then h r c else 0) = scat2 d 0 h r c := by
  unfold scat2
  have e : ∀ i, scat d 0 (fun j => h i j) c = if c < MU d then h i c else 0 := fun i => (mayer_head d (fun j => h i j) (fun j hj => h2 i j hj) c).symm
  rw [show (fun i => scat d 0 (fun j => h i j) c) = fun i => if c < MU d then h i c else 0 from funext e,
    ← mayer_head d (fun i => if c < MU d then h i c else 0) (fun i hi => by rw [h1 i c hi, ite_self]) r]
  by_cases a : r < MU d
  · by_cases b : c < MU d
    · rw [if_pos ⟨a, b⟩, if_pos a, if_pos b]
    · rw [if_neg (by omega), if_pos a, if_neg b]
  · rw [if_neg (by omega), if_neg a]

theorem headX_ext (z : Fin d.VAR → ℝ) : headX d (ext z) = statesOf d (nodeXU d (ext z) 0) := by
  funext i
  unfold statesOf nodeXU headX
  rw [if_pos i.2, Nat.zero_mul, Nat.zero_add]

/-! ### Gradient and Hessian -/

/-- The cost as a function of states and controls. -/
theorem cost_fn (hc : OldCost cb L m) (x : Fin d.VAR → ℝ) (t0 tf : ℝ) :
    (fun z : Fin d.VAR → ℝ => ((Cost.mk0 d A cb).eval d (ext (withPar d x z)) t0 tf).getD 0)
      = fun z => ∑ it ∈ Finset.range d.NN, jf d it * tScale d t0 tf * A.w (it % d.N) * L (nodeXU d (ext z) it) (par d (ext x))
        + m (statesOf d (nodeXU d (ext z) 0)) := by
  funext z
  rw [eval_nodes d cb L m A hc, Option.getD_some, par_withPar, headX_ext, nodeXU_withPar d x z (zero_lt d), add_comm]
  congr 1
  refine Finset.sum_congr rfl fun it hit => ?_
  rw [nodeXU_withPar d x z (Finset.mem_range.1 hit)]
  ring

/-- **C223.** With exact AD the gradient function succeeds, returns the same value as the evaluation, and the gradient of the cost with the
parameters held fixed; the entries of the parameters are zero. The uninitialised accumulators do not matter. -/
theorem old_cost_gradient (hc : OldCost cb L m) (x : Fin d.VAR → ℝ) (ha : OldCostAD cb L m x) (t0 tf : ℝ) (a0 m0 : Dual (MU d) ℝ) :
    ∃ J q, (Cost.mk0 d A cb).valueGradient d (ext x) t0 tf a0 m0 = some (J, q) ∧ (Cost.mk0 d A cb).eval d (ext x) t0 tf = some J ∧
      IsGradient (fun z => ((Cost.mk0 d A cb).eval d (ext (withPar d x z)) t0 tf).getD 0) (fun c => q c) x ∧
      ∀ c, d.VARX + d.VARU ≤ c → q c = 0 := by
  have hch : ∀ k, ∃ a : Dual (MU d) ℝ, k < d.NN → (∀ old, cb.lagAD (nodeXU d (ext x) k) (par d (ext x)) old = a) ∧
      AdExact a (fun z => L z (par d (ext x))) (nodeXU d (ext x) k) := by
    intro k
    by_cases h : k < d.NN
    · obtain ⟨a, h'⟩ := ha.lag k h
      exact ⟨a, fun _ => h'⟩
    · exact ⟨⟨0, fun _ => 0⟩, fun h1 => absurd h1 h⟩
  choose a hY using hch
  obtain ⟨J, q, e, hJ, hq⟩ := valueGradient_closed d (Cost.mk0 d A cb) A.w rfl (ext x) t0 tf a0 m0 a fun k hk old => (hY k hk).1 old
  have hm := ha.mayer m0
  have hmz : ∀ i, d.NX ≤ i → derAt (cb.mayerAD (headX d (ext x)) m0) i = 0 := fun i hi =>
    derAt_ge _ fun j hj => mayer_grad_zero d m hm.2 (by omega)
  have hq' : ∀ c, q c = ∑ it ∈ Finset.range d.NN, jf d it * tScale d t0 tf * A.w (it % d.N) * scat d it (ext (a it).der) c
      + scat d 0 (ext (cb.mayerAD (headX d (ext x)) m0).der) c := by
    intro c
    rw [hq c]
    congr 1
    · unfold gSum
      exact Finset.sum_congr rfl fun it _ => by dsimp only; rw [derAt_eq]; ring
    · exact mayer_head d _ hmz c
  refine ⟨J, q, e, ?_, ?_, fun c hcc => ?_⟩
  · rw [eval_nodes d cb L m A hc, hJ, headX_ext]
    congr 1
    rw [add_comm]
    have e1 : ((Cost.mk0 d A cb).cb.mayerAD (statesOf d (nodeXU d (ext x) 0)) m0).val = m (statesOf d (nodeXU d (ext x) 0)) := by
      rw [← headX_ext]; exact hm.1.trans (by rw [headX_ext])
    rw [e1]
    congr 1
    exact Finset.sum_congr rfl fun it hit => by rw [(hY it (Finset.mem_range.1 hit)).2.1]
  · rw [cost_fn d cb L m A hc x t0 tf, show (fun c : Fin d.VAR => q c) = _ from funext fun c : Fin d.VAR => hq' c]
    refine IsGradient.add' (IsGradient.sum' _ fun it hit => IsGradient.smul' _ ?_) (isGradient_xu d (zero_lt d) hm.2)
    exact isGradient_xu d (Finset.mem_range.1 hit) (hY it (Finset.mem_range.1 hit)).2.2
  · rw [hq' c, scat_par d _ (zero_lt d) hcc, add_zero]
    exact Finset.sum_eq_zero fun it hit => by rw [scat_par d _ (Finset.mem_range.1 hit) hcc, mul_zero]

theorem hesRow_eq (a : Dual (MU d) (Dual (MU d) ℝ)) {f : (Fin (MU d) → ℝ) → ℝ} {z : Fin (MU d) → ℝ}
    (h : IsHessian f (fun r i => (a.der i).der r) z) :
    hesRow a = fun i j => ext (fun j => ext (fun i => (a.der j).der i) i) j := by
  funext i j
  unfold hesRow derAt ext
  by_cases hi : i < MU d
  · by_cases hj : j < MU d
    · simp only [hi, hj, dif_pos]
      exact (h.symm ⟨i, hi⟩ ⟨j, hj⟩).symm
    · simp only [hi, hj, dif_pos, dif_neg, not_false_eq_true]
  · by_cases hj : j < MU d
    · simp only [hi, hj, dif_pos, dif_neg, not_false_eq_true]
    · simp only [hi, hj, dif_neg, not_false_eq_true]

/-- **C223.** The second-order function succeeds and returns value, gradient and Hessian of the cost with the parameters held fixed. -/
theorem old_cost_hessian (hc : OldCost cb L m) (x : Fin d.VAR → ℝ) (ha : OldCostAD2 cb L m x) (t0 tf : ℝ)
    (a0 m0 : Dual (MU d) (Dual (MU d) ℝ)) :
    ∃ J q H, (Cost.mk0 d A cb).valueGradientHessian d (ext x) t0 tf a0 m0 = some (J, q, H) ∧ (Cost.mk0 d A cb).eval d (ext x) t0 tf = some J ∧
      IsGradient (fun z => ((Cost.mk0 d A cb).eval d (ext (withPar d x z)) t0 tf).getD 0) (fun c => q c) x ∧
      IsHessian (fun z => ((Cost.mk0 d A cb).eval d (ext (withPar d x z)) t0 tf).getD 0) (fun r c => H r c) x := by
  have hch : ∀ k, ∃ a : Dual (MU d) (Dual (MU d) ℝ), k < d.NN → (∀ old, cb.lagAD2 (nodeXU d (ext x) k) (par d (ext x)) old = a) ∧
      AdExact2 a (fun z => L z (par d (ext x))) (nodeXU d (ext x) k) := by
    intro k
    by_cases h : k < d.NN
    · obtain ⟨a, h'⟩ := ha.lag k h
      exact ⟨a, fun _ => h'⟩
    · exact ⟨⟨⟨0, fun _ => 0⟩, fun _ => ⟨0, fun _ => 0⟩⟩, fun h1 => absurd h1 h⟩
  choose a hY using hch
  obtain ⟨J, q, H, e, hJ, hq, hH⟩ := valueGradientHessian_closed d (Cost.mk0 d A cb) A.w rfl (ext x) t0 tf a0 m0 a fun k hk old => (hY k hk).1 old
  have hm := ha.mayer m0
  have hmz : ∀ i, d.NX ≤ i → derAt (cb.mayerAD2 (headX d (ext x)) m0).val i = 0 := fun i hi =>
    derAt_ge _ fun j hj => mayer_grad_zero d m hm.2.1 (by omega)
  have hq' : ∀ c, q c = ∑ it ∈ Finset.range d.NN, jf d it * tScale d t0 tf * A.w (it % d.N) * scat d it (ext (a it).val.der) c
      + scat d 0 (ext (cb.mayerAD2 (headX d (ext x)) m0).val.der) c := by
    intro c
    rw [hq c]
    congr 1
    · unfold gSum
      exact Finset.sum_congr rfl fun it _ => by dsimp only; rw [derAt_eq]; ring
    · exact mayer_head d _ hmz c
  have hH' : ∀ r c, H r c = ∑ it ∈ Finset.range d.NN, jf d it * tScale d t0 tf * A.w (it % d.N) *
        scat2 d it (fun i j => ext (fun j => ext (fun i => ((a it).der j).der i) i) j) r c
      + scat2 d 0 (fun i j => ext (fun j => ext (fun i => ((cb.mayerAD2 (headX d (ext x)) m0).der j).der i) i) j) r c := by
    intro r c
    rw [hH r c]
    congr 1
    · unfold hSum
      refine Finset.sum_congr rfl fun it hit => ?_
      dsimp only
      rw [hesRow_eq d (a it) (hY it (Finset.mem_range.1 hit)).2.2.2]; ring
    · rw [← hesRow_eq d (cb.mayerAD2 (headX d (ext x)) m0) hm.2.2]
      refine mayer_head2 d _ (fun i j hi => ?_) (fun i j hj => ?_) r c
      · show hesRow (cb.mayerAD2 (headX d (ext x)) m0) i j = 0
        unfold hesRow
        by_cases hl : i < MU d
        · rw [dif_pos hl]
          exact derAt_ge _ fun l _ => (mayer_hess_zero d m hm.2.2 (i := ⟨i, hl⟩) hi l).1
        · rw [dif_neg hl]
      · show hesRow (cb.mayerAD2 (headX d (ext x)) m0) i j = 0
        unfold hesRow
        by_cases hl : i < MU d
        · rw [dif_pos hl]
          exact derAt_ge _ fun l hlj => (mayer_hess_zero d m hm.2.2 (i := l) (by omega) ⟨i, hl⟩).2
        · rw [dif_neg hl]
  refine ⟨J, q, H, e, ?_, ?_, ?_⟩
  · rw [eval_nodes d cb L m A hc, hJ, headX_ext]
    congr 1
    rw [add_comm]
    have e1 : ((Cost.mk0 d A cb).cb.mayerAD2 (statesOf d (nodeXU d (ext x) 0)) m0).val.val = m (statesOf d (nodeXU d (ext x) 0)) := by
      rw [← headX_ext]; exact hm.1.trans (by rw [headX_ext])
    rw [e1]
    congr 1
    exact Finset.sum_congr rfl fun it hit => by rw [(hY it (Finset.mem_range.1 hit)).2.1]
  · rw [cost_fn d cb L m A hc x t0 tf, show (fun c : Fin d.VAR => q c) = _ from funext fun c : Fin d.VAR => hq' c]
    refine IsGradient.add' (IsGradient.sum' _ fun it hit => IsGradient.smul' _ ?_) (isGradient_xu d (zero_lt d) hm.2.1)
    exact isGradient_xu d (Finset.mem_range.1 hit) (hY it (Finset.mem_range.1 hit)).2.2.1
  · rw [cost_fn d cb L m A hc x t0 tf, show (fun r c : Fin d.VAR => H r c) = _ from funext fun r : Fin d.VAR => funext fun c : Fin d.VAR => hH' r c]
    refine IsHessian.add' (IsHessian.sum' _ fun it hit => IsHessian.smul' _ ?_) (isHessian_xu d (zero_lt d) hm.2.2)
    exact isHessian_xu d (Finset.mem_range.1 hit) (hY it (Finset.mem_range.1 hit)).2.2.2

/-- **C223.** If the cost is differentiable with respect to all variables, the returned vector is its gradient iff the derivatives with respect to
the parameters vanish. -/
theorem old_cost_gradient_iff (hc : OldCost cb L m) (x : Fin d.VAR → ℝ) (ha : OldCostAD cb L m x) (t0 tf : ℝ) (a0 m0 : Dual (MU d) ℝ)
    (v : Fin d.VAR → ℝ) (hv : IsGradient (fun z => ((Cost.mk0 d A cb).eval d (ext z) t0 tf).getD 0) v x) :
    ∃ J q, (Cost.mk0 d A cb).valueGradient d (ext x) t0 tf a0 m0 = some (J, q) ∧
      (IsGradient (fun z => ((Cost.mk0 d A cb).eval d (ext z) t0 tf).getD 0) (fun c => q c) x ↔
        ∀ c : Fin d.VAR, d.VARX + d.VARU ≤ c.val → v c = 0) := by
  obtain ⟨J, q, e, -, h2, h3⟩ := old_cost_gradient d cb L m A hc x ha t0 tf a0 m0
  refine ⟨J, q, e, fun hg c hcc => ?_, fun hz => ?_⟩
  · rw [grad_unique hv hg]; exact h3 c hcc
  · have h4 := isGradient_withPar d hv
    have e2 := grad_unique h2 h4
    have e3 : (fun c : Fin d.VAR => q c) = v := by
      rw [e2]
      funext c
      by_cases hcc : c.val < d.VARX + d.VARU
      · rw [if_pos hcc]
      · rw [if_neg hcc, hz c (by omega)]
    rw [e3]; exact hv

/-! ### Cases -/

/-- Running cost `p`, no terminal cost. -/
def exCost : CostCbs exD ℝ where
  lag _ p _ := p 0
  lagAD _ p _ := ⟨p 0, fun _ => 0⟩
  lagAD2 _ p _ := ⟨⟨p 0, fun _ => 0⟩, fun _ => ⟨0, fun _ => 0⟩⟩
  mayer _ _ := 0
  mayerAD _ _ := ⟨0, fun _ => 0⟩
  mayerAD2 _ _ := ⟨⟨0, fun _ => 0⟩, fun _ => ⟨0, fun _ => 0⟩⟩

theorem exCost_fn : OldCost exCost (fun _ p => p 0) fun _ => 0 := ⟨fun _ _ _ => rfl, fun _ _ => rfl⟩

theorem exCost_ad (x : Fin exD.VAR → ℝ) : OldCostAD exCost (fun _ p => p 0) (fun _ => 0) x :=
  ⟨fun k _ => ⟨_, fun _ => rfl, rfl, isGradient_const _ _⟩, fun _ => ⟨rfl, isGradient_const _ _⟩⟩

/-- **C223.** A case: with the running cost `p` the gradient function succeeds everywhere, but what it returns is not the gradient of the cost. -/
theorem old_cost_misses_parameters (hw : A.w 0 ≠ 0) (x : Fin exD.VAR → ℝ) (a0 m0 : Dual (MU exD) ℝ) :
    ∃ J q, (Cost.mk0 exD A exCost).valueGradient exD (ext x) 0 2 a0 m0 = some (J, q) ∧
      ¬ IsGradient (fun z => ((Cost.mk0 exD A exCost).eval exD (ext z) 0 2).getD 0) (fun c => q c) x := by
  have hv : IsGradient (fun z : Fin exD.VAR → ℝ => ((Cost.mk0 exD A exCost).eval exD (ext z) 0 2).getD 0)
      (fun c => 2 * A.w 0 * (if 4 = c.val then 1 else 0)) x := by
    have e : (fun z : Fin exD.VAR → ℝ => ((Cost.mk0 exD A exCost).eval exD (ext z) 0 2).getD 0) = fun z => 2 * A.w 0 * ext z 4 := by
      funext z
      rw [eval_nodes exD exCost _ _ A exCost_fn, Option.getD_some, ts_eq]
      show 0 + ∑ it ∈ Finset.range 2, _ = _
      rw [Finset.sum_range_succ, Finset.sum_range_one]
      have e0 : (jf exD 0 : ℝ) = 1 := if_neg (by decide)
      have e1 : (jf exD 1 : ℝ) = 1 := if_neg (by decide)
      have e2 : ((2 : ℝ) - 0) / (2 * (exD.S : ℝ)) = 1 := by show ((2 : ℝ) - 0) / (2 * ((1 : ℕ) : ℝ)) = 1; norm_num
      rw [e0, e1, e2]
      show 0 + (1 * (1 * A.w 0 * ext z 4) + 1 * (1 * A.w 0 * ext z 4)) = _
      ring
    rw [e]
    exact IsGradient.smul' _ (isGradient_ext (by decide) x)
  obtain ⟨J, q, e, h⟩ := old_cost_gradient_iff exD exCost _ _ A exCost_fn x (exCost_ad x) 0 2 a0 m0 _ hv
  refine ⟨J, q, e, fun hg => ?_⟩
  have := h.1 hg ⟨4, by decide⟩ (by decide)
  simp [hw] at this

/-- One state, no controls and parameters, two segments of order two; running and terminal cost `x^2`. -/
def sqD : Dims := ⟨1, 0, 0, 0, 2, 2⟩

/-- The functors. -/
def sqCost : CostCbs sqD ℝ where
  lag z _ _ := z ⟨0, by decide⟩ * z ⟨0, by decide⟩
  lagAD z _ _ := ⟨z ⟨0, by decide⟩ * z ⟨0, by decide⟩, fun _ => 2 * z ⟨0, by decide⟩⟩
  lagAD2 z _ _ := ⟨⟨z ⟨0, by decide⟩ * z ⟨0, by decide⟩, fun _ => 2 * z ⟨0, by decide⟩⟩, fun _ => ⟨2 * z ⟨0, by decide⟩, fun _ => 2⟩⟩
  mayer y _ := y ⟨0, by decide⟩ * y ⟨0, by decide⟩
  mayerAD y _ := ⟨y ⟨0, by decide⟩ * y ⟨0, by decide⟩, fun _ => 2 * y ⟨0, by decide⟩⟩
  mayerAD2 y _ := ⟨⟨y ⟨0, by decide⟩ * y ⟨0, by decide⟩, fun _ => 2 * y ⟨0, by decide⟩⟩, fun _ => ⟨2 * y ⟨0, by decide⟩, fun _ => 2⟩⟩

theorem sq_grad (z : Fin (MU sqD) → ℝ) :
    IsGradient (fun z : Fin (MU sqD) → ℝ => z ⟨0, by decide⟩ * z ⟨0, by decide⟩) (fun _ => 2 * z ⟨0, by decide⟩) z := by
  have h0 : HasFDerivAt (fun z : Fin (MU sqD) → ℝ => z ⟨0, by decide⟩)
      (ContinuousLinearMap.proj (R := ℝ) (φ := fun _ : Fin (MU sqD) => ℝ) ⟨0, by decide⟩) z := hasFDerivAt_apply _ z
  refine HasFDerivAt.congr_fderiv (h0.mul h0) ?_
  ext w
  rw [gradMap_apply]
  show _ = ∑ j : Fin 1, _
  rw [Fin.sum_univ_one]
  simp
  show z ⟨0, _⟩ * w ⟨0, _⟩ + z ⟨0, _⟩ * w ⟨0, _⟩ = 2 * z ⟨0, _⟩ * w ⟨0, _⟩
  ring

theorem sq_hess (z : Fin (MU sqD) → ℝ) :
    IsHessian (fun z : Fin (MU sqD) → ℝ => z ⟨0, by decide⟩ * z ⟨0, by decide⟩) (fun _ _ => 2) z := by
  refine ⟨fun z _ => 2 * z ⟨0, by decide⟩, Eventually.of_forall fun z => sq_grad z, fun i => ?_⟩
  have h0 : HasFDerivAt (fun z : Fin (MU sqD) → ℝ => z ⟨0, by decide⟩)
      (ContinuousLinearMap.proj (R := ℝ) (φ := fun _ : Fin (MU sqD) => ℝ) ⟨0, by decide⟩) z := hasFDerivAt_apply _ z
  refine HasFDerivAt.congr_fderiv (h0.const_mul 2) ?_
  ext w
  rw [gradMap_apply]
  show _ = ∑ j : Fin 1, _
  rw [Fin.sum_univ_one]
  simp
  rfl

/-- The case of the theorems: value, gradient and Hessian at every point for every time interval. -/
example (x : Fin sqD.VAR → ℝ) (t0 tf : ℝ) (a0 : Dual (MU sqD) (Dual (MU sqD) ℝ)) :
    ∃ J q H, (Cost.mk0 sqD (chebApprox 2) sqCost).valueGradientHessian sqD (ext x) t0 tf a0 a0 = some (J, q, H) ∧
      (Cost.mk0 sqD (chebApprox 2) sqCost).eval sqD (ext x) t0 tf = some J ∧
      IsGradient (fun z => ((Cost.mk0 sqD (chebApprox 2) sqCost).eval sqD (ext (withPar sqD x z)) t0 tf).getD 0) (fun c => q c) x ∧
      IsHessian (fun z => ((Cost.mk0 sqD (chebApprox 2) sqCost).eval sqD (ext (withPar sqD x z)) t0 tf).getD 0) (fun r c => H r c) x :=
  old_cost_hessian sqD sqCost (fun z _ => z ⟨0, by decide⟩ * z ⟨0, by decide⟩) (fun y => y ⟨0, by decide⟩ * y ⟨0, by decide⟩) (chebApprox 2)
    ⟨fun _ _ _ => rfl, fun _ _ => rfl⟩ x
    ⟨fun k _ => ⟨_, fun _ => rfl, rfl, sq_grad _, sq_hess _⟩, fun _ => by
      rw [headX_ext]; exact ⟨rfl, sq_grad _, sq_hess _⟩⟩ t0 tf a0 a0

end PolyMPC.OldColloc
