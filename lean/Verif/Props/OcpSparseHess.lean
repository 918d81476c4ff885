import Verif.Lemmas.OcpSparsePair
import Verif.Props.OcpSource

/-!
# Sparse second derivatives (C79, C80, C81, C82)

The Hessian matrix goes through an arbitrary history of evaluations and quasi-Newton updates (`ReachH`), the Jacobian matrices through an
arbitrary history of linearisations (`Reach`).
-/

namespace PolyMPC.Ocp
open AD Sparse Sparse.Csc Spec

set_option linter.unusedSectionVars false
set_option linter.unusedVariables false

section Order
variable {K : Type} [Field K] [LinearOrder K]

theorem guard_ok {d : Dims} (hU : d.NU ≤ d.NX) (hVX : d.NX ≤ d.VARU + d.NP ∨ d.NU = 0) : ¬ (0 < d.NU ∧ (d.NX < d.NU ∨ d.VAR < d.VARX + d.NX)) := by
  unfold Dims.VAR; omega

theorem scatter2_zero (d : Dims) (k : ℕ) {h : ℕ → ℕ → K} (h0 : ∀ i < d.M, ∀ j < d.M, h i j = 0) (r c : ℕ) : scatter2 d k h r c = 0 := by
  unfold scatter2 scatter
  refine Finset.sum_eq_zero fun i hi => ?_
  split_ifs
  · refine Finset.sum_eq_zero fun j hj => ?_
    dsimp only
    rw [h0 i (Finset.mem_range.1 hi) j (Finset.mem_range.1 hj), ite_self]
  · rfl

/-- No parameters, or a single segment with as many states, controls and parameters: the first call makes no error. -/
theorem costErr_zero (d : Dims) (A : Approx K) (o : Obj d K) (h : ℕ → ℕ → ℕ → K) (hd : d.NP = 0 ∨ (d.S = 1 ∧ d.NX = d.NU ∧ d.NU = d.NP)) (r c : ℕ) :
    costErr d A o h r c = 0 := by
  refine Finset.sum_eq_zero fun s hs => Finset.sum_eq_zero fun k hk => ?_
  rw [scatter2_zero d _ _ r c, mul_zero]
  intro i hi j hj
  have hs' := Finset.mem_range.1 hs
  unfold firstErr
  unfold Dims.M at hi hj
  rcases hd with h0 | ⟨h1, h2, h3⟩
  · split_ifs with a b b c
    · omega
    · rfl
    · omega
    · omega
    · rfl
  · rw [if_neg (by omega)]
    split_ifs with b c
    · rw [show j - d.NU + d.NP = j by omega, sub_self]
    · rw [show j - d.NX + d.NU = j by omega, sub_self]
    · rfl

/-! ### C79: repeated evaluation -/

/-- **C79.** After at least one evaluation, and after any further history of evaluations at other points, with other callbacks and of
quasi-Newton updates, the sparse second-order evaluation of the cost succeeds and returns the same cost and gradient as the dense one. Its
Hessian differs from the dense one only by the error of the dense version (C77). Nothing of the earlier contents is left. -/
theorem sparse_cost_eq_dense (d : Dims) (A : Approx K) (hX : 0 < d.NX) (hS : 1 ≤ d.S) (hN : 1 ≤ d.N) (hU : d.NU ≤ d.NX)
    (hVX : d.NX ≤ d.VARU + d.NP ∨ d.NU = 0) (cb : Cbs d K) (o : Obj d K) (var : ℕ → K) (hw : Writes d cb o var) {H : Csc K} (hH : ReachH d A H)
    (hne : ¬ Empty H) :
    ∃ J g H' o' gd Hd, costHesSparse d A cb o var H = some (J, g, H', o') ∧ costGradientHessian d A cb o var = some (J, gd, Hd, o') ∧
      (∀ c < d.VAR, g c = gd c) ∧
      ∀ r < d.VAR, ∀ c < d.VAR, H'.coeff r c = Hd r c - mayerErr d (hesOf (cb.mayerAD2 (node d var 0) (o.time 0) (zero2 d.M))) r c := by
  obtain ⟨L, hw⟩ := hw
  obtain ⟨J, g, H', o', gd, Hd, M, e, ed, hg, hM, hoff, hv⟩ := cost_pair d hX hS hN A cb o var (hH.inv hX hS hN) (guard_ok hU hVX)
    (fun h => absurd h hne) L hw
  refine ⟨J, g, H', o', gd, Hd, e, ed, hg, fun r hr c hc => ?_⟩
  rw [hM.coeff hr hc (hoff r hr c hc), hv r hr c hc, if_neg hne, add_zero]

/-- **C79.** Without parameters the sparse Hessian is the dense one in all calls, also in the first. -/
theorem sparse_cost_eq_dense_noparam (d : Dims) (A : Approx K) (hX : 0 < d.NX) (hS : 1 ≤ d.S) (hN : 1 ≤ d.N) (hU : d.NU ≤ d.NX)
    (hVX : d.NX ≤ d.VARU + d.NP ∨ d.NU = 0) (hP : d.NP = 0) (cb : Cbs d K) (o : Obj d K) (var : ℕ → K) (hw : Writes d cb o var) {H : Csc K}
    (hH : ReachH d A H) :
    ∃ J g H' o' gd Hd, costHesSparse d A cb o var H = some (J, g, H', o') ∧ costGradientHessian d A cb o var = some (J, gd, Hd, o') ∧
      (∀ c < d.VAR, g c = gd c) ∧ ∀ r < d.VAR, ∀ c < d.VAR, H'.coeff r c = Hd r c := by
  obtain ⟨L, hw⟩ := hw
  obtain ⟨J, g, H', o', gd, Hd, M, e, ed, hg, hM, hoff, hv⟩ := cost_pair d hX hS hN A cb o var (hH.inv hX hS hN) (guard_ok hU hVX)
    (fun h => by omega) L hw
  refine ⟨J, g, H', o', gd, Hd, e, ed, hg, fun r hr c hc => ?_⟩
  rw [hM.coeff hr hc (hoff r hr c hc), hv r hr c hc, costErr_zero d A o _ (Or.inl hP), ite_self, add_zero]
  unfold mayerErr
  rw [if_neg (by unfold Dims.VAR; omega), sub_zero]

/-! ### C80: the first evaluation -/

/-- **C80 (negative).** With more parameters than controls the first evaluation fails a range assertion. -/
theorem first_cost_asserts (d : Dims) (A : Approx K) (hX : 0 < d.NX) (hlt : d.NU < d.NP) (cb : Cbs d K) (o : Obj d K) (var : ℕ → K) {H : Csc K}
    (hE : Empty H) : costHesSparse d A cb o var H = none := by
  rw [costHesSparse_fresh d hX A cb o var hE]
  unfold costHesFresh
  rw [if_pos (Or.inl ⟨hX, hlt⟩)]

/-- **C80 (negative).** On the first call the entry for a control of a node between two segments and a parameter lacks the contribution of
the later segment, while the transposed entry has it, in the case of as many states, controls and parameters. The returned matrix is
then not symmetric although all node Hessians are. -/
theorem first_cost_not_symmetric (d : Dims) (A : Approx K) (hX : 0 < d.NX) (hS : 1 ≤ d.S) (hN : 1 ≤ d.N) (h1 : d.NX = d.NU) (h2 : d.NU = d.NP)
    (cb : Cbs d K) (o : Obj d K) (var : ℕ → K) (L : ℕ → Dual d.M (Dual d.M K))
    (hw : ∀ k < d.NN, ∀ old, cb.lagAD2 (node d var k) (o.time k) old = L k)
    (hsL : ∀ k < d.NN, ∀ i < d.M, ∀ j < d.M, hesOf (L k) i j = hesOf (L k) j i)
    (hsm : ∀ i < d.M, ∀ j < d.M, hesOf (cb.mayerAD2 (node d var 0) (o.time 0) (zero2 d.M)) i j = hesOf (cb.mayerAD2 (node d var 0) (o.time 0) (zero2 d.M)) j i)
    {H : Csc K} (hE : Empty H) {s : ℕ} (hs0 : 0 < s) (hs : s < d.S) {i a : ℕ} (hi : i < d.NU) (ha : a < d.NP) :
    ∃ J g H' o', costHesSparse d A cb o var H = some (J, g, H', o') ∧
      H'.coeff (d.VARX + d.VARU + a) (s * d.N * d.NU + d.VARX + i) - H'.coeff (s * d.N * d.NU + d.VARX + i) (d.VARX + d.VARU + a)
        = tScale d o * A.w 0 * hesOf (L (s * d.N)) (d.NX + i) (d.NX + d.NU + a) := by
  have hVU : d.NX ≤ d.VARU := by
    unfold Dims.VARU Dims.NN
    rw [h1]
    have : 1 ≤ d.S * d.N + 1 := by omega
    nlinarith
  obtain ⟨J, g, H', o', gd, Hd, M, e, ed, hg, hM, hoff, hv⟩ := cost_pair d hX hS hN A cb o var (Or.inl hE) (guard_ok (by omega) (Or.inl (by omega)))
    (fun _ => by omega) L hw
  obtain ⟨J2, g2, Hd2, o2, ed2, -, -, -, -, -, -, -, -, hHd⟩ := costHessian_closed d A cb o var L hw (guard_ok (d := d) (by omega) (Or.inl (by omega)))
  rw [ed] at ed2
  simp only [Option.some.injEq, Prod.mk.injEq] at ed2
  obtain ⟨-, -, rfl, -⟩ := ed2
  refine ⟨J, g, H', o', e, ?_⟩
  have ht : s * d.N < d.NN := by
    have := mul_step (n := d.N) hs
    unfold Dims.NN; omega
  have h0 : 0 < d.NN := by omega
  have er : s * d.N * d.NU + d.VARX + i = nodeIdx d (s * d.N) (d.NX + i) := by rw [nodeIdx_u d _ hi]
  have ep : d.VARX + d.VARU + a = nodeIdx d (s * d.N) (d.NX + d.NU + a) := by rw [nodeIdx_p]
  have hri : nodeIdx d (s * d.N) (d.NX + i) < d.VAR := nodeIdx_lt d ht (by unfold Dims.M; omega)
  have hpi : nodeIdx d (s * d.N) (d.NX + d.NU + a) < d.VAR := nodeIdx_lt d ht (by unfold Dims.M; omega)
  have hiM : d.NX + i < d.M := by unfold Dims.M; omega
  have haM : d.NX + d.NU + a < d.M := by unfold Dims.M; omega
  rw [er, ep, hM.coeff hpi hri (hoff _ hpi _ hri), hM.coeff hri hpi (hoff _ hri _ hpi), hv _ hpi _ hri, hv _ hri _ hpi, if_pos hE, if_pos hE,
    hHd _ hpi _ hri, hHd _ hri _ hpi]
  have hent : ∀ k < d.NN, ∀ h : ℕ → ℕ → K, scatter2 d k h (nodeIdx d (s * d.N) (d.NX + i)) (nodeIdx d (s * d.N) (d.NX + d.NU + a))
      = if k = s * d.N then h (d.NX + i) (d.NX + d.NU + a) else 0 := fun k hk h => scatter2_entry d hk ht hiM haM (Or.inl (by omega)) h
  have hent' : ∀ k < d.NN, ∀ h : ℕ → ℕ → K, scatter2 d k h (nodeIdx d (s * d.N) (d.NX + d.NU + a)) (nodeIdx d (s * d.N) (d.NX + i))
      = if k = s * d.N then h (d.NX + d.NU + a) (d.NX + i) else 0 := fun k hk h => scatter2_entry d hk ht haM hiM (Or.inr (by omega)) h
  have hquad : quad d A (tScale d o) (fun k => scatter2 d k (hesOf (L k)) (nodeIdx d (s * d.N) (d.NX + d.NU + a)) (nodeIdx d (s * d.N) (d.NX + i)))
      = quad d A (tScale d o) (fun k => scatter2 d k (hesOf (L k)) (nodeIdx d (s * d.N) (d.NX + i)) (nodeIdx d (s * d.N) (d.NX + d.NU + a))) := by
    unfold quad
    refine Finset.sum_congr rfl fun s' hs' => Finset.sum_congr rfl fun j hj => ?_
    have hk := node_lt d (Finset.mem_range.1 hs') (show j ≤ d.N by have := Finset.mem_range.1 hj; omega)
    dsimp only
    rw [hent _ hk, hent' _ hk, hsL _ hk _ haM _ hiM]
  have herr' : costErr d A o (fun k => hesOf (L k)) (nodeIdx d (s * d.N) (d.NX + d.NU + a)) (nodeIdx d (s * d.N) (d.NX + i)) = 0 := by
    refine Finset.sum_eq_zero fun s' hs' => Finset.sum_eq_zero fun k hk => ?_
    rw [hent' _ (quad_node_lt d (Finset.mem_range.1 hs') (Finset.mem_range.1 hk))]
    unfold firstErr
    have : d.NX + i - d.NX + d.NU = d.NX + i := by omega
    split_ifs with q1 q2 q3 q4 q5
    · omega
    · rw [mul_zero]
    · omega
    · rw [this, sub_self, mul_zero]
    · rw [mul_zero]
    · rw [mul_zero]
  have herr : costErr d A o (fun k => hesOf (L k)) (nodeIdx d (s * d.N) (d.NX + i)) (nodeIdx d (s * d.N) (d.NX + d.NU + a))
      = -(tScale d o * A.w 0 * hesOf (L (s * d.N)) (d.NX + i) (d.NX + d.NU + a)) := by
    unfold costErr
    rw [Finset.sum_eq_single_of_mem s (Finset.mem_range.2 hs), Finset.sum_eq_single_of_mem 0 (Finset.mem_range.2 (by omega))]
    · rw [Nat.zero_add, hent _ ht, if_pos rfl]
      unfold firstErr
      rw [if_pos ⟨hs0, rfl⟩, if_pos (by omega)]
      ring
    · intro k hk hne
      rw [hent _ (quad_node_lt d hs (Finset.mem_range.1 hk)), if_neg (by omega), mul_zero]
    · intro s' hs' hne
      refine Finset.sum_eq_zero fun k hk => ?_
      rw [hent _ (quad_node_lt d (Finset.mem_range.1 hs') (Finset.mem_range.1 hk))]
      split_ifs with q
      · unfold firstErr
        have hk' := Finset.mem_range.1 hk
        have : ¬ (0 < s' ∧ k = 0) := by
          rintro ⟨-, rfl⟩
          rw [Nat.zero_add] at q
          exact hne (Nat.eq_of_mul_eq_mul_right (by omega) q)
        rw [if_neg this, if_neg (by omega), if_neg (by omega), mul_zero]
      · rw [mul_zero]
  have hm0 : scatter2 d 0 (hesOf (cb.mayerAD2 (node d var 0) (o.time 0) (zero2 d.M))) (nodeIdx d (s * d.N) (d.NX + d.NU + a)) (nodeIdx d (s * d.N) (d.NX + i))
      = scatter2 d 0 (hesOf (cb.mayerAD2 (node d var 0) (o.time 0) (zero2 d.M))) (nodeIdx d (s * d.N) (d.NX + i)) (nodeIdx d (s * d.N) (d.NX + d.NU + a)) := by
    rw [hent 0 h0, hent' 0 h0, hsm _ haM _ hiM]
  rw [hquad, hm0, herr, herr']
  ring

/-! ### C81, C82: Lagrangian -/

/-- **C81.** Sparse and dense Lagrangian gradient agree after any history of calls, if all rows of the sparse Jacobian are right (C40, C44). -/
theorem sparse_lagrangian_gradient (d : Dims) (A : Approx K) (hX : 0 < d.NX) (hS : 1 ≤ d.S) (hN : 1 ≤ d.N) (hsk : SkewEnds d A) (hD : OffDiag d A)
    (cb : Cbs d K) (o : Obj d K) (junk jac0 : ℕ → ℕ → K) (var lam c0 : ℕ → K) (J0 : ℕ → ℕ → K) {m : SpJac K} (hm : Reach d A m) (hG : JacOk d m) :
    ∃ J lg cg c m' o', lagrangianGradientSparse d A cb o junk jac0 var lam c0 m = some (J, lg, cg, c, m', o') ∧
      J = (lagrangianGradient d A cb o junk var lam c0 J0).1 ∧ (∀ i < d.VAR, lg i = (lagrangianGradient d A cb o junk var lam c0 J0).2.1 i) ∧
      cg = (lagrangianGradient d A cb o junk var lam c0 J0).2.2.1 ∧ c = (lagrangianGradient d A cb o junk var lam c0 J0).2.2.2.1 ∧
      ∀ r < d.NEQ + d.NINEQ, ∀ i < d.VAR, m'.J.coeff r i = (lagrangianGradient d A cb o junk var lam c0 J0).2.2.2.2.1 r i := by
  obtain ⟨c, m', o', e, hc, -, hJ, hmul⟩ := con_pair d A hX hS hN hsk hD cb (costGradient d A cb o var).2.2 junk jac0 var lam c0 J0 hm hG
  refine ⟨(costGradient d A cb o var).1, fun i => mulT m'.J lam i + (costGradient d A cb o var).2.1 i + lam (d.NEQ + d.NINEQ + i),
    (costGradient d A cb o var).2.1, c, m', o', ?_, rfl, fun i hi => ?_, rfl, hc, hJ⟩
  · unfold lagrangianGradientSparse
    dsimp only
    rw [e]
    rfl
  · dsimp only
    rw [hmul i hi]
    rfl

/-- **C82.** After at least one evaluation the sparse second-order evaluation of the Lagrangian returns the value and gradient of the dense
one, and its Hessian up to the error of the dense version (C77), for every cost scaling. -/
theorem sparse_lagrangian_eq_dense (d : Dims) (A : Approx K) (hX : 0 < d.NX) (hS : 1 ≤ d.S) (hN : 1 ≤ d.N) (hsk : SkewEnds d A) (hD : OffDiag d A)
    (hU : d.NU ≤ d.NX) (hVX : d.NX ≤ d.VARU + d.NP ∨ d.NU = 0) (cb : Cbs d K) (o : Obj d K) (junk jac0 : ℕ → ℕ → K) (var lam c0 : ℕ → K) (J0 : ℕ → ℕ → K)
    (xd0 g0 : ℕ → Dual d.M (Dual d.M K)) (costScale : K) (hw : Writes d cb o var) {H : Csc K} (hH : ReachH d A H) (hne : ¬ Empty H ∨ d.NP = 0)
    {m : SpJac K} (hm : Reach d A m) (hG : JacOk d m) :
    ∃ J g H' m' o' gd Hd od, lagrangianGradientHessianSparse d A cb o junk jac0 var lam c0 m xd0 g0 costScale H = some (J, g, H', m', o') ∧
      lagrangianGradientHessian d A cb o junk var lam c0 J0 xd0 g0 costScale = some (J, gd, Hd, od) ∧ (∀ c < d.VAR, g c = gd c) ∧
      ∀ r < d.VAR, ∀ c < d.VAR,
        H'.coeff r c = Hd r c - costScale * mayerErr d (hesOf (cb.mayerAD2 (node d var 0) (o.time 0) (zero2 d.M))) r c := by
  obtain ⟨L, hw⟩ := hw
  obtain ⟨J, g, H', m', o', gd, Hd, od, e, ed, hg, -, hv⟩ := lag_pair d hX hS hN A hsk hD cb o junk jac0 var lam c0 J0 xd0 g0 costScale (hH.inv hX hS hN)
    hm hG (guard_ok hU hVX) (fun h => by rcases hne with h' | h'; exact absurd h h'; omega) L hw
  refine ⟨J, g, H', m', o', gd, Hd, od, e, ed, hg, fun r hr c hc => ?_⟩
  rw [hv r hr c hc]
  rcases hne with h | h
  · rw [if_neg h, add_zero]
  · rw [costErr_zero d A o _ (Or.inl h), mul_zero, ite_self, add_zero]

end Order

section Real
variable (d : Dims) (A : Approx ℝ) (cb : Cbs d ℝ) (o : Obj d ℝ) (L : ℕ → (Fin d.M → ℝ) → ℝ) (m : (Fin d.M → ℝ) → ℝ) (x : Fin d.VAR → ℝ)

theorem writes_of_exact (hL2 : ∀ k < d.NN, LagExact2 cb (o.time k) (L k) (node d (ext x) k)) : Writes d cb o (ext x) := by
  have : ∀ k, ∃ a, k < d.NN → ∀ old, cb.lagAD2 (node d (ext x) k) (o.time k) old = a := fun k => by
    by_cases hk : k < d.NN
    · obtain ⟨a, ha, -⟩ := (hL2 k hk).ad2; exact ⟨a, fun _ => ha⟩
    · exact ⟨⟨⟨0, fun _ => 0⟩, fun _ => ⟨0, fun _ => 0⟩⟩, fun h => absurd h hk⟩
  choose F hF using this
  exact ⟨F, hF⟩

/-- **C79.** After at least one evaluation, whatever the history, the sparse matrix holds the Hessian of the cost; the gradient is returned
with it. -/
theorem sparse_cost_hessian (hX : 0 < d.NX) (hS : 1 ≤ d.S) (hN : 1 ≤ d.N) (hU : d.NU ≤ d.NX) (hVX : d.NX ≤ d.VARU + d.NP ∨ d.NU = 0)
    (hL : ∀ k < d.NN, LagExact cb (o.time k) (L k) (node d (ext x) k)) (hm : MayerExact cb (o.time 0) m (node d (ext x) 0))
    (hL2 : ∀ k < d.NN, LagExact2 cb (o.time k) (L k) (node d (ext x) k)) (hm2 : MayerExact2 cb (o.time 0) m (node d (ext x) 0))
    {H : Csc ℝ} (hH : ReachH d A H) (hne : ¬ Empty H ∨ d.NP = 0) :
    ∃ J g H' o', costHesSparse d A cb o (ext x) H = some (J, g, H', o') ∧ J = cost d A cb o (ext x) ∧
      IsGradient (fun z => cost d A cb o (ext z)) (fun c => g c) x ∧ IsHessian (fun z => cost d A cb o (ext z)) (fun r c => H'.coeff r c) x := by
  obtain ⟨J1, q, H1, o1, e1, -, -, -, hJ, hq, hHs⟩ := cost_hessian d A cb o L m x hU hVX hL hm hL2 hm2
  have hs : ∃ J g H' o' gd Hd, costHesSparse d A cb o (ext x) H = some (J, g, H', o') ∧ costGradientHessian d A cb o (ext x) = some (J, gd, Hd, o') ∧
      (∀ c < d.VAR, g c = gd c) ∧
      ∀ r < d.VAR, ∀ c < d.VAR, H'.coeff r c = Hd r c - mayerErr d (hesOf (cb.mayerAD2 (node d (ext x) 0) (o.time 0) (zero2 d.M))) r c := by
    rcases hne with h | h
    · exact sparse_cost_eq_dense d A hX hS hN hU hVX cb o (ext x) (writes_of_exact d cb o L x hL2) hH h
    · obtain ⟨J, g, H', o', gd, Hd, a1, a2, a3, a4⟩ := sparse_cost_eq_dense_noparam d A hX hS hN hU hVX h cb o (ext x) (writes_of_exact d cb o L x hL2) hH
      refine ⟨J, g, H', o', gd, Hd, a1, a2, a3, fun r hr c hc => ?_⟩
      rw [a4 r hr c hc]
      unfold mayerErr
      rw [if_neg (by unfold Dims.VAR; omega), sub_zero]
  obtain ⟨J, g, H', o', gd, Hd, e, ed, hg, hv⟩ := hs
  rw [e1] at ed
  simp only [Option.some.injEq, Prod.mk.injEq] at ed
  obtain ⟨rfl, rfl, rfl, -⟩ := ed
  refine ⟨J1, g, H', o', e, hJ, ?_, ?_⟩
  · have : (fun c : Fin d.VAR => g c) = fun c : Fin d.VAR => q c := by funext c; exact hg c c.2
    rw [this]; exact hq
  · have : (fun r c : Fin d.VAR => H'.coeff r c)
        = fun r c : Fin d.VAR => H1 r c - mayerErr d (hesOf (cb.mayerAD2 (node d (ext x) 0) (o.time 0) (zero2 d.M))) r c := by
      funext r c; exact hv r r.2 c c.2
    rw [this]; exact hHs

/-- **C80 (negative).** The first evaluation returns the Hessian of the cost iff the error `costErr`, made of shifted and missing
parameter blocks of the running cost, vanishes. -/
theorem first_cost_hessian_iff (hX : 0 < d.NX) (hS : 1 ≤ d.S) (hN : 1 ≤ d.N) (hU : d.NU ≤ d.NX) (hVX : d.NX ≤ d.VARU + d.NP ∨ d.NU = 0) (hP : d.NP ≤ d.NU)
    (hL : ∀ k < d.NN, LagExact cb (o.time k) (L k) (node d (ext x) k)) (hm : MayerExact cb (o.time 0) m (node d (ext x) 0))
    (hL2 : ∀ k < d.NN, LagExact2 cb (o.time k) (L k) (node d (ext x) k)) (hm2 : MayerExact2 cb (o.time 0) m (node d (ext x) 0))
    (F : ℕ → Dual d.M (Dual d.M ℝ)) (hF : ∀ k < d.NN, ∀ old, cb.lagAD2 (node d (ext x) k) (o.time k) old = F k)
    {H : Csc ℝ} (hE : Empty H) :
    ∃ J g H' o', costHesSparse d A cb o (ext x) H = some (J, g, H', o') ∧ J = cost d A cb o (ext x) ∧
      IsGradient (fun z => cost d A cb o (ext z)) (fun c => g c) x ∧
      (IsHessian (fun z => cost d A cb o (ext z)) (fun r c => H'.coeff r c) x ↔
        ∀ r < d.VAR, ∀ c < d.VAR, costErr d A o (fun k => hesOf (F k)) r c = 0) ∧
      ((d.S = 1 ∧ d.NX = d.NU ∧ d.NU = d.NP) → IsHessian (fun z => cost d A cb o (ext z)) (fun r c => H'.coeff r c) x) := by
  obtain ⟨J1, q, H1, o1, e1, -, -, -, hJ, hq, hHs⟩ := cost_hessian d A cb o L m x hU hVX hL hm hL2 hm2
  obtain ⟨J, g, H', o', gd, Hd, M, e, ed, hg, hM, hoff, hv⟩ := cost_pair d hX hS hN A cb o (ext x) (Or.inl hE) (guard_ok hU hVX) (fun _ => hP) F hF
  rw [e1] at ed
  simp only [Option.some.injEq, Prod.mk.injEq] at ed
  obtain ⟨rfl, rfl, rfl, -⟩ := ed
  have hval : ∀ r < d.VAR, ∀ c < d.VAR, H'.coeff r c = (H1 r c - mayerErr d (hesOf (cb.mayerAD2 (node d (ext x) 0) (o.time 0) (zero2 d.M))) r c)
      + costErr d A o (fun k => hesOf (F k)) r c := fun r hr c hc => by
    rw [hM.coeff hr hc (hoff r hr c hc), hv r hr c hc, if_pos hE]
  have key : (∀ r < d.VAR, ∀ c < d.VAR, costErr d A o (fun k => hesOf (F k)) r c = 0) →
      IsHessian (fun z => cost d A cb o (ext z)) (fun r c => H'.coeff r c) x := fun h => by
    have : (fun r c : Fin d.VAR => H'.coeff r c)
        = fun r c : Fin d.VAR => H1 r c - mayerErr d (hesOf (cb.mayerAD2 (node d (ext x) 0) (o.time 0) (zero2 d.M))) r c := by
      funext r c; rw [hval r r.2 c c.2, h r r.2 c c.2, add_zero]
    rw [this]; exact hHs
  refine ⟨J1, g, H', o', e, hJ, ?_, ⟨fun h r hr c hc => ?_, key⟩, fun h => key fun r _ c _ => costErr_zero d A o _ (Or.inr h) r c⟩
  · have : (fun c : Fin d.VAR => g c) = fun c : Fin d.VAR => q c := by funext c; exact hg c c.2
    rw [this]; exact hq
  · have := congrFun (congrFun (hessian_unique h hHs) ⟨r, hr⟩) ⟨c, hc⟩
    simp only at this
    have hv' := hval r hr c hc
    linarith

variable (junk jac0 : ℕ → ℕ → ℝ) (lam c0 : ℕ → ℝ) (f g : ℕ → ℕ → (Fin d.M → ℝ) → ℝ)

/-- **C82.** With cost scaling one, after at least one evaluation or without parameters, the sparse evaluation of the Lagrangian returns the
cost, the gradient of the Lagrangian, and a matrix that holds the Hessian of the Lagrangian. -/
theorem sparse_lagrangian_hessian (hX : 0 < d.NX) (hS : 1 ≤ d.S) (hN : 1 ≤ d.N) (hsk : SkewEnds d A) (hD : OffDiag d A)
    (xd0 g0 : ℕ → Dual d.M (Dual d.M ℝ)) (hU : d.NU ≤ d.NX) (hVX : d.NX ≤ d.VARU + d.NP ∨ d.NU = 0)
    (hf : ∀ k < d.NN, DynExact cb (o.time k) (f k) (node d (ext x) k)) (hg : ∀ k < d.NN, IneqExact cb (o.time k) (g k) (node d (ext x) k))
    (hL : ∀ k < d.NN, LagExact cb (o.time k) (L k) (node d (ext x) k)) (hm : MayerExact cb (o.time 0) m (node d (ext x) 0))
    (hf2 : ∀ k < d.NN, DynExact2 cb (o.time k) (f k) (node d (ext x) k)) (hg2 : ∀ k < d.NN, IneqExact2 cb (o.time k) (g k) (node d (ext x) k))
    (hL2 : ∀ k < d.NN, LagExact2 cb (o.time k) (L k) (node d (ext x) k)) (hm2 : MayerExact2 cb (o.time 0) m (node d (ext x) 0))
    {H : Csc ℝ} (hH : ReachH d A H) (hne : ¬ Empty H ∨ d.NP = 0) {mj : SpJac ℝ} (hmj : Reach d A mj) (hG : JacOk d mj) :
    ∃ J q H' mj' o', lagrangianGradientHessianSparse d A cb o junk jac0 (ext x) lam c0 mj xd0 g0 1 H = some (J, q, H', mj', o') ∧
      J = cost d A cb o (ext x) ∧ IsGradient (fun z => lagrangian d A cb o junk (ext z) lam c0) (fun c => q c) x ∧
      IsHessian (fun z => lagrangian d A cb o junk (ext z) lam c0) (fun r c => H'.coeff r c) x := by
  obtain ⟨J1, q, H1, o1, e1, hJ, hq, hHs⟩ := lagrangian_hessian d A cb o junk c0 (fun _ _ => 0) f g L m lam x hS hN hsk xd0 g0 hU hVX hf hg hL hm hf2 hg2 hL2 hm2
  obtain ⟨J, q', H', m', o', gd, Hd, od, e, ed, hgr, hv⟩ := sparse_lagrangian_eq_dense d A hX hS hN hsk hD hU hVX cb o junk jac0 (ext x) lam c0 (fun _ _ => 0)
    xd0 g0 1 (writes_of_exact d cb o L x hL2) hH hne hmj hG
  rw [e1] at ed
  simp only [Option.some.injEq, Prod.mk.injEq] at ed
  obtain ⟨rfl, rfl, rfl, -⟩ := ed
  refine ⟨J1, q', H', m', o', e, hJ, ?_, ?_⟩
  · have : (fun c : Fin d.VAR => q' c) = fun c : Fin d.VAR => q c := by funext c; exact hgr c c.2
    rw [this]; exact hq
  · have : (fun r c : Fin d.VAR => H'.coeff r c)
        = fun r c : Fin d.VAR => H1 r c - mayerErr d (hesOf (cb.mayerAD2 (node d (ext x) 0) (o.time 0) (zero2 d.M))) r c := by
      funext r c; rw [hv r r.2 c c.2, one_mul]
    rw [this]; exact hHs

end Real

/-! ### Concrete runs -/

/-- Running cost `u p` (with exact derivatives), no terminal cost, dimensions of `dims3`. -/
def cbs4 : Cbs dims3 ℚ := { cbs3 with
  lagAD2 := fun z _ _ => ⟨⟨z 1 * z 2, fun i => if i.val = 1 then z 2 else if i.val = 2 then z 1 else 0⟩,
    fun i => ⟨if i.val = 1 then z 2 else if i.val = 2 then z 1 else 0, fun j => if (i.val = 1 ∧ j.val = 2) ∨ (i.val = 2 ∧ j.val = 1) then 1 else 0⟩⟩ }

/-- **C80, witness.** Control of the middle node and parameter: the first call has 1 in one triangle and 2 in the other. -/
example : ((costHesSparse dims3 approx3 cbs4 obj3 (fun i => i) empty3.J).map fun s => (s.2.2.1.coeff 4 6, s.2.2.1.coeff 6 4)) = some ((1 : ℚ), 2) := by
  decide +kernel

/-- The second call repairs it. -/
example : (((costHesSparse dims3 approx3 cbs4 obj3 (fun i => i) empty3.J).bind fun s => costHesSparse dims3 approx3 cbs4 obj3 (fun i => i) s.2.2.1).map
    fun s => (s.2.2.1.coeff 4 6, s.2.2.1.coeff 6 4)) = some ((2 : ℚ), 2) := by
  decide +kernel

/-- Histories as in C79 and C82 exist: the matrix left by the call above is not empty. -/
example : ∃ H : Csc ℚ, ReachH dims3 approx3 H ∧ ¬ Empty H := by
  have hw : Writes dims3 cbs4 obj3 (fun i => (i : ℚ)) := ⟨fun k => cbs4.lagAD2 (node dims3 (fun i => (i : ℚ)) k) (obj3.time k) (zero2 _), fun k _ old => rfl⟩
  have hE : Empty empty3.J := ⟨fun _ => rfl, fun _ => rfl⟩
  obtain ⟨L, hL⟩ := hw
  obtain ⟨J, g, H', o', gd, Hd, M, e, -, -, hM, -⟩ := cost_pair dims3 (by decide) (by decide) (by decide) approx3 cbs4 obj3 (fun i => (i : ℚ)) (Or.inl hE)
    (by decide) (fun _ => by decide) L hL
  exact ⟨H', ReachH.cost cbs4 obj3 o' _ J g (ReachH.init hE) ⟨L, hL⟩ e, hM.not_empty (by decide)⟩

end PolyMPC.Ocp
