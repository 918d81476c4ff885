import Verif.Lemmas.OcpSparseLag
import Verif.Props.OcpSparse

/-! # Sparse and dense second derivatives side by side -/

namespace PolyMPC.Ocp
open AD Sparse Sparse.Csc

set_option linter.unusedSectionVars false
set_option linter.unusedVariables false

variable {K : Type} [Field K] [DecidableEq K]

theorem loop_map {α β : Type} (π : α → β) {f : ℕ → α → α} {g : ℕ → β → β} (h : ∀ i s, π (f i s) = g i (π s)) (n : ℕ) (s : α) :
    π (loop n f s) = loop n g (π s) := by
  induction n with
  | zero => rfl
  | succ n ih => rw [loop_succ, loop_succ, h, ih]

/-- The AD variable of the running cost after all evaluations. -/
def costTrace (d : Dims) (cb : Cbs d K) (o : Obj d K) (var : ℕ → K) : Dual d.M (Dual d.M K) :=
  loop d.S (fun s a => loop (d.N + 1) (fun k a => cb.lagAD2 (node d var (k + s * d.N)) (o.time (k + s * d.N)) a) a) (clearVal o.ad2Cost)

theorem hesLoop_trace (d : Dims) (A : Approx K) (cb : Cbs d K) (o : Obj d K) (var : ℕ → K) (visit : ℕ → ℕ → (ℕ → ℕ → K) → List (Op K)) (H : Csc K) :
    (hesLoop d A cb o var visit H).2.2.2.2 = costTrace d cb o var := by
  unfold hesLoop costTrace
  refine loop_map (fun st : HesState d K => st.2.2.2.2) (g := fun s a => loop (d.N + 1) (fun k a => cb.lagAD2 (node d var (k + s * d.N)) (o.time (k + s * d.N)) a) a)
    (fun s st => ?_) d.S _
  exact loop_map (fun st : HesState d K => st.2.2.2.2) (fun k st => rfl) (d.N + 1) st

theorem costHessian_obj (d : Dims) (A : Approx K) (cb : Cbs d K) (o : Obj d K) (var : ℕ → K) {J : K} {g : ℕ → K} {H : ℕ → ℕ → K} {o' : Obj d K}
    (e : costGradientHessian d A cb o var = some (J, g, H, o')) : o' = { o with ad2Cost := costTrace d cb o var } := by
  unfold costGradientHessian at e
  dsimp only at e
  split_ifs at e
  simp only [Option.some.injEq, Prod.mk.injEq] at e
  obtain ⟨-, -, -, e⟩ := e
  rw [← e]
  congr 1
  unfold costTrace
  refine loop_map (fun st : K × (ℕ → K) × (ℕ → ℕ → K) × Dual d.M (Dual d.M K) => st.2.2.2)
    (g := fun s a => loop (d.N + 1) (fun k a => cb.lagAD2 (node d var (k + s * d.N)) (o.time (k + s * d.N)) a) a) (fun s st => ?_) d.S _
  exact loop_map (fun st : K × (ℕ → K) × (ℕ → ℕ → K) × Dual d.M (Dual d.M K) => st.2.2.2) (fun k st => rfl) (d.N + 1) st

theorem costHesSparse_obj (d : Dims) (A : Approx K) (cb : Cbs d K) (o : Obj d K) (var : ℕ → K) {H : Csc K} {J : K} {g : ℕ → K} {H' : Csc K} {o' : Obj d K}
    (e : costHesSparse d A cb o var H = some (J, g, H', o')) : o' = { o with ad2Cost := costTrace d cb o var } := by
  unfold costHesSparse costHesFresh costHesUpdate at e
  dsimp only at e
  split_ifs at e
  · rw [Option.map_eq_some_iff] at e
    obtain ⟨B, -, e⟩ := e
    simp only [Prod.mk.injEq] at e
    rw [← e.2.2.2, hesLoop_trace]
  · rw [Option.map_eq_some_iff] at e
    obtain ⟨B, -, e⟩ := e
    simp only [Prod.mk.injEq] at e
    rw [← e.2.2.2, hesLoop_trace]

/-- What the first call writes wrongly for one node Hessian `h`: where two segments meet, the control-parameter block is not added; elsewhere
the state-parameter and parameter-control blocks are read from shifted columns. -/
def firstErr (d : Dims) (s k : ℕ) (h : ℕ → ℕ → K) (i j : ℕ) : K :=
  if 0 < s ∧ k = 0 then (if (d.NX ≤ i ∧ i < d.NX + d.NU) ∧ d.NX + d.NU ≤ j then -h i j else 0)
  else if i < d.NX ∧ d.NX + d.NU ≤ j then h i (j - d.NU + d.NP) - h i j
  else if d.NX + d.NU ≤ i ∧ d.NX ≤ j ∧ j < d.NX + d.NU then h i (j - d.NX + d.NU) - h i j
  else 0

/-- The error of the first call: summed over all quadrature points. -/
def costErr (d : Dims) (A : Approx K) (o : Obj d K) (h : ℕ → ℕ → ℕ → K) (r c : ℕ) : K :=
  ∑ s ∈ Finset.range d.S, ∑ k ∈ Finset.range (d.N + 1), tScale d o * A.w k * scatter2 d (k + s * d.N) (firstErr d s k (h (k + s * d.N))) r c

theorem firstLoc_err (d : Dims) (s k : ℕ) (a : K) (h : ℕ → ℕ → K) :
    firstLoc d s k (fun i j => a * h i j) = fun i j => a * h i j + a * firstErr d s k h i j := by
  funext i j
  unfold firstLoc firstErr
  by_cases h1 : 0 < s ∧ k = 0
  · rw [if_pos h1, if_pos h1]; unfold addH; split_ifs <;> ring
  · rw [if_neg h1, if_neg h1]; unfold insH; split_ifs <;> ring

theorem firstHes_eq (d : Dims) (A : Approx K) (o : Obj d K) (L : ℕ → Dual d.M (Dual d.M K)) (m : Dual d.M (Dual d.M K)) (r c : ℕ) :
    firstHes d A o L m r c = laterHes d A o L m r c + costErr d A o (fun k => hesOf (L k)) r c := by
  rw [laterHes_eq]
  unfold firstHes costErr hesAt
  rw [add_right_comm, ← Finset.sum_add_distrib]
  congr 1
  refine Finset.sum_congr rfl fun s _ => ?_
  rw [← Finset.sum_add_distrib]
  refine Finset.sum_congr rfl fun k _ => ?_
  rw [firstLoc_err, ← scatter2_smul d (k + s * d.N) (tScale d o * A.w k) (firstErr d s k (hesOf (L (k + s * d.N))))]
  exact scatter2_add d (k + s * d.N) _ _ r c

theorem laterHes_off (d : Dims) (A : Approx K) (o : Obj d K) (L : ℕ → Dual d.M (Dual d.M K)) (m : Dual d.M (Dual d.M K)) {r c : ℕ} (hr : r < d.VAR)
    (hc : c < d.VAR) (hp : hesPat d c r = false) : laterHes d A o L m r c = 0 := by
  have h0 : 0 < d.NN := by unfold Dims.NN; omega
  rw [laterHes_eq, scatter2_miss d h0 hp hr hc, add_zero]
  refine Finset.sum_eq_zero fun s hs => Finset.sum_eq_zero fun k hk => ?_
  rw [scatter2_miss d (quad_node_lt d (Finset.mem_range.1 hs) (Finset.mem_range.1 hk)) hp hr hc]

theorem costErr_off (d : Dims) (A : Approx K) (o : Obj d K) (h : ℕ → ℕ → ℕ → K) {r c : ℕ} (hr : r < d.VAR)
    (hc : c < d.VAR) (hp : hesPat d c r = false) : costErr d A o h r c = 0 := by
  refine Finset.sum_eq_zero fun s hs => Finset.sum_eq_zero fun k hk => ?_
  rw [scatter2_miss d (quad_node_lt d (Finset.mem_range.1 hs) (Finset.mem_range.1 hk)) hp hr hc, mul_zero]

theorem HesForm.coeff {d : Dims} {H : Csc K} {M : ℕ → ℕ → K} (h : HesForm d H M) {r c : ℕ} (hr : r < d.VAR) (hc : c < d.VAR) (hoff : hesPat d c r = false → M r c = 0) :
    H.coeff r c = M r c := by
  rw [h.holds.coeff_eq hc]
  by_cases hp : hesPat d c r = true
  · rw [if_pos hp]
  · rw [if_neg hp, hoff (Bool.eq_false_iff.2 hp)]

open scoped Classical in
/-- Sparse and dense second-order evaluation of the cost. -/
theorem cost_pair (d : Dims) (hX : 0 < d.NX) (hS : 1 ≤ d.S) (hN : 1 ≤ d.N) (A : Approx K) (cb : Cbs d K) (o : Obj d K) (var : ℕ → K) {H : Csc K}
    (hH : HesInv d H) (hok : ¬ (0 < d.NU ∧ (d.NX < d.NU ∨ d.VAR < d.VARX + d.NX))) (hf : Empty H → d.NP ≤ d.NU) (L : ℕ → Dual d.M (Dual d.M K))
    (hw : ∀ k < d.NN, ∀ old, cb.lagAD2 (node d var k) (o.time k) old = L k) :
    ∃ J g H' o' gd Hd M, costHesSparse d A cb o var H = some (J, g, H', o') ∧ costGradientHessian d A cb o var = some (J, gd, Hd, o') ∧
      (∀ c < d.VAR, g c = gd c) ∧ HesForm d H' M ∧ (∀ r < d.VAR, ∀ c < d.VAR, hesPat d c r = false → M r c = 0) ∧
      (∀ r < d.VAR, ∀ c < d.VAR, M r c = Hd r c - mayerErr d (hesOf (cb.mayerAD2 (node d var 0) (o.time 0) (zero2 d.M))) r c
        + if Empty H then costErr d A o (fun k => hesOf (L k)) r c else 0) := by
  obtain ⟨J, gd, Hd, o', e, -, -, -, -, -, -, hJ, hg, hHd⟩ := costHessian_closed d A cb o var L hw hok
  by_cases hE : Empty H
  · obtain ⟨J1, g1, H1, a, e1, hJ1, hg1, h1⟩ := costHesFresh_form d A cb o var H L hS hN ⟨by have := hf hE; omega, hok⟩ hw
    rw [← costHesSparse_fresh d hX A cb o var hE] at e1
    have ho : ({ o with ad2Cost := a } : Obj d K) = o' := by rw [costHesSparse_obj d A cb o var e1, costHessian_obj d A cb o var e]
    rw [ho] at e1
    rw [hJ1, ← hJ] at e1
    refine ⟨J, g1, H1, o', gd, Hd, _, e1, e, fun c hc => by rw [hg1 c hc, hg c hc], h1, fun r hr c hc hp => ?_, fun r hr c hc => ?_⟩
    · rw [firstHes_eq, laterHes_off d A o L _ hr hc hp, costErr_off d A o _ hr hc hp, add_zero]
    · rw [if_pos hE, firstHes_eq, hHd r hr c hc, add_sub_cancel_right]; rfl
  · obtain ⟨M0, hH⟩ := hH.resolve_left hE
    obtain ⟨J1, g1, H1, a, e1, hJ1, hg1, h1⟩ := costHesUpdate_form d A cb o var H M0 hH L hS hok hw
    rw [← costHesSparse_later d A cb o var hH] at e1
    have ho : ({ o with ad2Cost := a } : Obj d K) = o' := by rw [costHesSparse_obj d A cb o var e1, costHessian_obj d A cb o var e]
    rw [ho] at e1
    rw [hJ1, ← hJ] at e1
    refine ⟨J, g1, H1, o', gd, Hd, _, e1, e, fun c hc => by rw [hg1 c hc, hg c hc], h1, fun r hr c hc hp => laterHes_off d A o L _ hr hc hp,
      fun r hr c hc => ?_⟩
    rw [if_neg hE, hHd r hr c hc, add_sub_cancel_right, add_zero]; rfl

/-! ### Constraints -/

theorem constraintsLinSparse_obj (d : Dims) (A : Approx K) (hX : 0 < d.NX) (hS : 1 ≤ d.S) (hN : 1 ≤ d.N) (hD : OffDiag d A) (cb : Cbs d K) (o : Obj d K)
    (junk jac0 : ℕ → ℕ → K) (var c0 : ℕ → K) {m : SpJac K} (hm : Inv d A m) (hle : d.NG ≤ d.NX ∨ Empty m.Ji) {c : ℕ → K} {m' : SpJac K} {o' : Obj d K}
    (e : constraintsLinSparse d A cb o junk jac0 var c0 m = some (c, m', o')) :
    o'.tStart = o.tStart ∧ o'.tStop = o.tStop ∧ o'.time = o.time := by
  obtain ⟨Je, e1, h1⟩ := eqLinSparse_form d A hX hS hN hD cb o junk var c0 (J := m.Je) (by
    rcases hm with h | ⟨W, M, M0, h, _⟩
    · exact Or.inl h.1
    · exact Or.inr ⟨W, h⟩)
  obtain ⟨cg, Ji, o2, e2, h2, -⟩ := ineqLinSparse_form d hX cb { o with adY := yT d cb o var d.NN } jac0 var
    (fun i => setSeg c0 0 d.NEQ (cT d A cb o junk var c0 d.NN) (d.NEQ + i)) (J := m.Ji) (by
    rcases hm with h | ⟨W, M, M0, _, h, _⟩
    · exact Or.inl h.2.1
    · rcases hle with hle | hle
      · exact Or.inr ⟨hle, M, h⟩
      · exact Or.inl hle)
  have ho2 : o2.tStart = o.tStart ∧ o2.tStop = o.tStop ∧ o2.time = o.time := by
    by_cases h0 : d.NG = 0
    · have e2' := e2
      unfold ineqLinSparse at e2'
      rw [if_pos h0] at e2'
      simp only [Option.some.injEq, Prod.mk.injEq] at e2'
      rw [← e2'.2.2]; exact ⟨rfl, rfl, rfl⟩
    · rw [(h2 h0).2]; exact ⟨rfl, rfl, rfl⟩
  have e' : (eqLinSparse d A cb o junk var c0 m.Je).bind _ = _ := e
  rw [e1] at e'
  have e'' : (ineqLinSparse d cb { o with adY := yT d cb o var d.NN } jac0 var
      (fun i => setSeg c0 0 d.NEQ (cT d A cb o junk var c0 d.NN) (d.NEQ + i)) m.Ji).bind _ = _ := e'
  rw [e2] at e''
  have e3 : (assemble d Je Ji m.J).bind _ = _ := e''
  rw [Option.bind_eq_some_iff] at e3
  obtain ⟨J', -, e3⟩ := e3
  simp only [Option.some.injEq, Prod.mk.injEq] at e3
  rw [← e3.2.2]; exact ho2

theorem addConstraint_congr (d : Dims) (cb : Cbs d K) {o o2 : Obj d K} (h1 : o2.tStart = o.tStart) (h2 : o2.tStop = o.tStop) (h3 : o2.time = o.time)
    (var lam : ℕ → K) (xd0 g0 : ℕ → Dual d.M (Dual d.M K)) (H0 : ℕ → ℕ → K) :
    addConstraintHessian d cb o2 var lam xd0 g0 H0 = addConstraintHessian d cb o var lam xd0 g0 H0 := by
  unfold addConstraintHessian tScale; rw [h1, h2, h3]

/-- The condition under which all Jacobian rows are right. -/
abbrev JacOk (d : Dims) (m : SpJac K) : Prop := d.NG = 0 ∨ d.NG = d.NX ∨ First m

theorem con_pair (d : Dims) (A : Approx K) (hX : 0 < d.NX) (hS : 1 ≤ d.S) (hN : 1 ≤ d.N) (hsk : SkewEnds d A) (hD : OffDiag d A)
    (cb : Cbs d K) (o : Obj d K) (junk jac0 : ℕ → ℕ → K) (var lam c0 : ℕ → K) (J0 : ℕ → ℕ → K) {m : SpJac K} (hm : Reach d A m) (hG : JacOk d m) :
    ∃ c m' o', constraintsLinSparse d A cb o junk jac0 var c0 m = some (c, m', o') ∧ c = (constraintsLin d A cb o junk var c0 J0).1 ∧
      (o'.tStart = o.tStart ∧ o'.tStop = o.tStop ∧ o'.time = o.time) ∧
      (∀ r < d.NEQ + d.NINEQ, ∀ cc < d.VAR, m'.J.coeff r cc = (constraintsLin d A cb o junk var c0 J0).2.1 r cc) ∧
      ∀ cc < d.VAR, mulT m'.J lam cc = ∑ i ∈ Finset.range (d.NEQ + d.NINEQ), (constraintsLin d A cb o junk var c0 J0).2.1 i cc * lam i := by
  have hle : d.NG ≤ d.NX ∨ Empty m.Ji := by
    rcases hG with h | h | h
    · left; omega
    · left; omega
    · exact Or.inr h.2.1
  obtain ⟨c, m', o', e, -, -, ⟨M, hM⟩, -, -, hc, -⟩ := step_spec d A hX hS hN hsk hD cb o junk jac0 var c0 J0 (hm.inv hX hS hN hsk hD) hle
  obtain ⟨c1, m1, o1, e1, -, hJ⟩ := sparse_eq_dense d A hX hS hN hsk hD cb o junk jac0 var c0 J0 hm hG
  rw [e] at e1
  simp only [Option.some.injEq, Prod.mk.injEq] at e1
  obtain ⟨-, rfl, -⟩ := e1
  refine ⟨c, m', o', e, hc, constraintsLinSparse_obj d A hX hS hN hD cb o junk jac0 var c0 (hm.inv hX hS hN hsk hD) hle e, hJ, fun cc hcc => ?_⟩
  rw [mulT_eq hM.holds lam hcc]
  exact Finset.sum_congr rfl fun r hr => by rw [hJ r (Finset.mem_range.1 hr) cc hcc]

open scoped Classical in
/-- Sparse and dense second-order evaluation of the Lagrangian. -/
theorem lag_pair (d : Dims) (hX : 0 < d.NX) (hS : 1 ≤ d.S) (hN : 1 ≤ d.N) (A : Approx K) (hsk : SkewEnds d A) (hD : OffDiag d A) (cb : Cbs d K) (o : Obj d K)
    (junk jac0 : ℕ → ℕ → K) (var lam c0 : ℕ → K) (J0 : ℕ → ℕ → K) (xd0 g0 : ℕ → Dual d.M (Dual d.M K)) (cs : K) {H : Csc K} (hH : HesInv d H)
    {m : SpJac K} (hm : Reach d A m) (hG : JacOk d m) (hok : ¬ (0 < d.NU ∧ (d.NX < d.NU ∨ d.VAR < d.VARX + d.NX))) (hf : Empty H → d.NP ≤ d.NU)
    (L : ℕ → Dual d.M (Dual d.M K)) (hw : ∀ k < d.NN, ∀ old, cb.lagAD2 (node d var k) (o.time k) old = L k) :
    ∃ J g H' m' o' gd Hd od, lagrangianGradientHessianSparse d A cb o junk jac0 var lam c0 m xd0 g0 cs H = some (J, g, H', m', o') ∧
      lagrangianGradientHessian d A cb o junk var lam c0 J0 xd0 g0 cs = some (J, gd, Hd, od) ∧ (∀ c < d.VAR, g c = gd c) ∧
      (∃ M, HesForm d H' M) ∧
      ∀ r < d.VAR, ∀ c < d.VAR, H'.coeff r c = Hd r c - cs * mayerErr d (hesOf (cb.mayerAD2 (node d var 0) (o.time 0) (zero2 d.M))) r c
        + if Empty H then cs * costErr d A o (fun k => hesOf (L k)) r c else 0 := by
  obtain ⟨J, g, H1, o1, gd, Hd, M, e1, ed, hg, hM, hoff, hMv⟩ := cost_pair d hX hS hN A cb o var hH hok hf L hw
  obtain ⟨c, m', o2, e2, -, ho, -, hmul⟩ := con_pair d A hX hS hN hsk hD cb o1 junk jac0 var lam c0 J0 hm hG
  have hM' : HesForm d (if cs = 1 then H1 else scaleVals cs H1) fun r c => cs * M r c := by
    by_cases h1 : cs = 1
    · rw [if_pos h1, h1]; simpa only [one_mul] using hM
    · rw [if_neg h1]; exact hM.scale cs
  obtain ⟨H2, e3, h3⟩ := addConstraint_sim d cb o2 var lam xd0 g0 hM'
  refine ⟨J, fun c => mulT m'.J lam c + g c + lam (d.NEQ + d.NINEQ + c), H2, m', o2,
    fun c => ∑ i ∈ Finset.range (d.NEQ + d.NINEQ), (constraintsLin d A cb o1 junk var c0 J0).2.1 i c * lam i + gd c + lam (d.NEQ + d.NINEQ + c),
    addConstraintHessian d cb (constraintsLin d A cb o1 junk var c0 J0).2.2 var lam xd0 g0 fun r c => cs * Hd r c,
    (constraintsLin d A cb o1 junk var c0 J0).2.2, ?_, ?_, ?_, ⟨_, h3⟩, ?_⟩
  · unfold lagrangianGradientHessianSparse
    rw [e1]
    show (constraintsLinSparse d A cb o1 junk jac0 var c0 m).bind _ = _
    rw [e2]
    show (addConstraintHessianSparse d cb o2 var lam xd0 g0 _).bind _ = _
    rw [e3]
    rfl
  · unfold lagrangianGradientHessian
    rw [ed]
    rfl
  · intro cc hcc
    dsimp only
    rw [hmul cc hcc, hg cc hcc]
  · intro r hr cc hcc
    have hob : (constraintsLin d A cb o1 junk var c0 J0).2.2.tStart = o1.tStart ∧ (constraintsLin d A cb o1 junk var c0 J0).2.2.tStop = o1.tStop ∧
        (constraintsLin d A cb o1 junk var c0 J0).2.2.time = o1.time := ⟨rfl, rfl, rfl⟩
    rw [h3.coeff hr hcc fun hp => by
        rw [addConstraint_add d cb o2 var lam xd0 g0 _ hr hcc, addConstraint_off d cb o2 var lam xd0 g0 hr hcc hp, hoff r hr cc hcc hp, mul_zero, add_zero],
      addConstraint_congr d cb ho.1 ho.2.1 ho.2.2, addConstraint_add d cb o1 var lam xd0 g0 _ hr hcc]
    rw [addConstraint_congr d cb hob.1 hob.2.1 hob.2.2, addConstraint_add d cb o1 var lam xd0 g0 (fun r c => cs * Hd r c) hr hcc, hMv r hr cc hcc]
    split_ifs <;> ring

end PolyMPC.Ocp
