import Verif.Lemmas.QPInf
import Verif.Props.QpAccuracy
import Verif.Props.BoxAdmmAdaptive

/-!
# Property C212: ADMM and boxADMM with infinite bounds

The bounds of a QP may be infinite (sqp_base.hpp:75-78 sets them so by default). A run of the solvers on such a QP is the run on the QP
in which the infinite bounds are replaced by any sufficiently large numbers. Consequently SOLVED has the same meaning as for finite
bounds, no multiplier is assigned to an absent bound, and the solvers stop with SOLVED on every convex QP that has a KKT point.
-/

set_option linter.unusedSectionVars false

namespace PolyMPC.Spec.QPInf
open Matrix

variable {K : Type*} [Field K] [LinearOrder K] [IsStrictOrderedRing K] {N M : ℕ} {qp : QPInf K N M} {qp' : QP K N M} {B : K}

theorem Approx.rows (h : qp.Approx B qp') (x : Fin N → K) : qp'.rows x = qp.rows x := by
  unfold QP.rows QPInf.rows; rw [h.A]

theorem Approx.lagrangian (h : qp.Approx B qp') (x : Fin N → K) (y : Fin M ⊕ Fin N → K) :
    qp'.lagrangianGradient x y = qp.lagrangianGradient x y := by
  unfold QP.lagrangianGradient QPInf.lagrangianGradient; rw [h.A, h.H, h.h]

theorem Approx.objective (h : qp.Approx B qp') (x : Fin N → K) : qp'.objective x = qp.objective x := by
  unfold QP.objective QPInf.objective; rw [h.H, h.h]

theorem Approx.convex (h : qp.Approx B qp') (hc : qp.Convex) : qp'.Convex := by
  unfold QP.Convex; rw [h.H]; exact hc

/-- The finite bounds of the approximation lie below every number that is above the bound and not below `-B`. -/
theorem lower_le {lb : WithBot K} {l v : K} (hl : LowerApprox B lb l) (hv : lb ≤ (v : K)) (hB : |v| ≤ B) : l ≤ v := by
  cases lb with
  | bot => exact (show l ≤ -B from hl).trans (by linarith [neg_abs_le v])
  | coe b => rw [show l = b from hl]; exact WithBot.coe_le_coe.mp hv

theorem le_upper {ub : WithTop K} {u v : K} (hu : UpperApprox B ub u) (hv : (v : K) ≤ ub) (hB : |v| ≤ B) : v ≤ u := by
  cases ub with
  | top => exact ((le_abs_self v).trans hB).trans hu
  | coe b => rw [show u = b from hu]; exact WithTop.coe_le_coe.mp hv

theorem le_of_lower {lb : WithBot K} {l v : K} (hl : LowerApprox B lb l) (hv : l ≤ v) : lb ≤ (v : K) := by
  cases lb with
  | bot => exact bot_le
  | coe b => exact WithBot.coe_le_coe.mpr ((show l = b from hl) ▸ hv)

theorem le_of_upper {ub : WithTop K} {u v : K} (hu : UpperApprox B ub u) (hv : v ≤ u) : (v : K) ≤ ub := by
  cases ub with
  | top => exact le_top
  | coe b => exact WithTop.coe_le_coe.mpr ((show u = b from hu) ▸ hv)

theorem eq_lower {lb : WithBot K} {l v : K} (hl : LowerApprox B lb l) (hv : v = l) (hB : |v| < B) : lb = (v : K) := by
  cases lb with
  | bot =>
    have : l ≤ -B := hl
    exact absurd (neg_abs_le v) (by linarith)
  | coe b => rw [hv, show l = b from hl]

theorem eq_upper {ub : WithTop K} {u v : K} (hu : UpperApprox B ub u) (hv : v = u) (hB : |v| < B) : ub = (v : K) := by
  cases ub with
  | top =>
    have : B ≤ u := hu
    exact absurd (le_abs_self v) (by linarith)
  | coe b => rw [hv, show u = b from hu]

theorem lower_eq {lb : WithBot K} {l v : K} (hl : LowerApprox B lb l) (hv : lb = (v : K)) : v = l := by
  rw [hv] at hl; exact (show l = v from hl).symm

theorem upper_eq {ub : WithTop K} {u v : K} (hu : UpperApprox B ub u) (hv : ub = (v : K)) : v = u := by
  rw [hv] at hu; exact (show u = v from hu).symm

theorem Approx.cone_of (h : qp.Approx B qp') {z y : Fin M ⊕ Fin N → K} (hz : ∀ i, |z i| < B)
    (hc : QP.InNormalCone qp'.lower qp'.upper z y) : InNormalCone qp.lower qp.upper z y := fun i =>
  ⟨⟨le_of_lower (h.lo i) (hc i).1.1, le_of_upper (h.up i) (hc i).1.2⟩, fun hy => eq_upper (h.up i) ((hc i).2.1 hy) (hz i),
    fun hy => eq_lower (h.lo i) ((hc i).2.2 hy) (hz i)⟩

theorem Approx.cone (h : qp.Approx B qp') {z y : Fin M ⊕ Fin N → K} (hz : ∀ i, |z i| ≤ B)
    (hc : InNormalCone qp.lower qp.upper z y) : QP.InNormalCone qp'.lower qp'.upper z y := fun i =>
  ⟨⟨lower_le (h.lo i) (hc i).1.1 (hz i), le_upper (h.up i) (hc i).1.2 (hz i)⟩, fun hy => upper_eq (h.up i) ((hc i).2.1 hy),
    fun hy => lower_eq (h.lo i) ((hc i).2.2 hy)⟩

theorem Approx.kkt (h : qp.Approx B qp') {x : Fin N → K} {y : Fin M ⊕ Fin N → K} (hz : ∀ i, |qp.rows x i| ≤ B) (hk : qp.KKT x y) :
    qp'.KKT x y := by
  refine ⟨(h.lagrangian x y).trans hk.1, ?_⟩
  rw [h.rows]
  exact h.cone hz hk.2

theorem Approx.feasible (h : qp.Approx B qp') {x : Fin N → K} (hz : ∀ i, |qp.rows x i| ≤ B) (hk : qp.Feasible x) :
    qp'.Feasible x := by
  refine ⟨fun i => ?_, fun i => ?_⟩
  · rw [h.A]
    exact ⟨lower_le (h.lo (Sum.inl i)) (hk.1 i).1 (hz (Sum.inl i)), le_upper (h.up (Sum.inl i)) (hk.1 i).2 (hz (Sum.inl i))⟩
  · exact ⟨lower_le (h.lo (Sum.inr i)) (hk.2 i).1 (hz (Sum.inr i)), le_upper (h.up (Sum.inr i)) (hk.2 i).2 (hz (Sum.inr i))⟩

theorem Approx.consistent (h : qp.Approx B qp') (hB : qp.size ≤ B) (hc : qp.Consistent) : qp'.Consistent := by
  intro i
  obtain ⟨v, h1, h2⟩ := hc i
  have hs := (qp.le_size i).trans hB
  have hlo := h.lo i
  have hup := h.up i
  have p1 := absLower_nonneg (qp.lower i)
  have p2 := absUpper_nonneg (qp.upper i)
  generalize qp.lower i = lb at *
  generalize qp.upper i = ub at *
  cases lb with
  | bot =>
    cases ub with
    | top =>
      have a1 : qp'.lower i ≤ -B := hlo
      have a2 : B ≤ qp'.upper i := hup
      linarith
    | coe b =>
      have a1 : qp'.lower i ≤ -B := hlo
      have a2 : qp'.upper i = b := hup
      have a3 : (0 : K) + |b| ≤ B := hs
      rw [a2]; linarith [neg_abs_le b]
  | coe a =>
    have a1 : qp'.lower i = a := hlo
    cases ub with
    | top =>
      have a2 : B ≤ qp'.upper i := hup
      have a3 : |a| + (0 : K) ≤ B := hs
      rw [a1]; linarith [le_abs_self a]
    | coe b =>
      have a2 : qp'.upper i = b := hup
      rw [a1, a2]
      exact (WithBot.coe_le_coe.mp h1).trans (WithTop.coe_le_coe.mp h2)

theorem le_sum_abs {ι : Type*} [Fintype ι] (z : ι → K) (i : ι) : |z i| ≤ ∑ j, |z j| :=
  Finset.single_le_sum (f := fun j => |z j|) (fun _ _ => abs_nonneg _) (Finset.mem_univ i)

end PolyMPC.Spec.QPInf

namespace PolyMPC.AdmmInf
open Matrix PolyMPC.Spec PolyMPC.QPBase PolyMPC.QPInfBase
open PolyMPC.Admm (StepResult State KktMat KktIdx)

variable {K : Type*} [Field K] [LinearOrder K] [IsStrictOrderedRing K] {N M : ℕ}
variable {both : Bool} {lin : KktMat K N M → (KktIdx N M → K) → (KktIdx N M → K)} {sq : K → K} {cfg : Settings K}
  {qp : QPInf K N M} {xg : Fin N → K} {yg : Fin M ⊕ Fin N → K} {old : State K N M}

/-- C212 (ADMM). A run on a QP with infinite bounds is the run on the QP in which they are replaced by any numbers of sufficiently large
modulus. -/
theorem solve_as_finite (both : Bool) (lin : KktMat K N M → (KktIdx N M → K) → (KktIdx N M → K)) (sq : K → K) (cfg : Settings K)
    (qp : QPInf K N M) (xg : Fin N → K) (yg : Fin M ⊕ Fin N → K) (old : State K N M) :
    ∃ B, ∀ qp', qp.Approx B qp' → Admm.solve both lin sq cfg qp' xg yg old = solve both lin sq cfg qp xg yg old := by
  obtain ⟨B, hB⟩ := loop_approx lin sq cfg qp cfg.maxIter.toNat 1 (setup both cfg qp xg yg old)
  refine ⟨max B (looseBoundsThresh + 1 + qp.size), fun qp' ha => ?_⟩
  unfold Admm.solve solve
  rw [setup_approx ha (le_max_right _ _), hB qp' (ha.mono (le_max_left _ _))]
  rfl

/-- C212 (ADMM). What SOLVED means on a QP with infinite bounds: the residuals are within the tolerances, `z` respects the bounds, the
multipliers are in the normal cone (none is assigned to an absent bound), and for convex problems the objective is nearly optimal. -/
theorem solved_meaning (hc : qp.Consistent) (hrho : 0 < cfg.rho) {st : State K N M}
    (h : solve both lin sq cfg qp xg yg old = some st) (hs : st.info.status = .SOLVED) :
    infNorm (qp.rows st.x - st.z) ≤ cfg.epsAbs + cfg.epsRel * max (infNorm (qp.rows st.x)) (infNorm st.z) ∧
    infNorm (qp.lagrangianGradient st.x st.y) ≤ cfg.epsAbs + cfg.epsRel *
      max (infNorm (qp.H *ᵥ st.x)) (max (infNorm (qp.Aᵀ *ᵥ QP.yA st.y)) (max (infNorm qp.h) (infNorm (QP.yBox st.y)))) ∧
    st.info.resPrim = infNorm (qp.rows st.x - st.z) ∧ st.info.resDual = infNorm (qp.lagrangianGradient st.x st.y) ∧
    QPInf.InNormalCone qp.lower qp.upper st.z st.y ∧
    (qp.Convex → ∀ w, qp.Feasible w →
      qp.objective st.x ≤ qp.objective w + st.info.resDual * oneNorm (st.x - w) + st.info.resPrim * oneNorm st.y) := by
  obtain ⟨B, hB⟩ := solve_as_finite both lin sq cfg qp xg yg old
  have key : ∀ B', max B (qp.size) ≤ B' → Admm.solve both lin sq cfg (qp.cut B') xg yg old = some st := fun B' hb => by
    rw [hB _ ((qp.cut_approx B').mono ((le_max_left _ _).trans hb))]; exact h
  have hcon : ∀ B', max B (qp.size) ≤ B' → (qp.cut B').Consistent := fun B' hb =>
    (qp.cut_approx B').consistent ((le_max_right _ _).trans hb) hc
  have hb1 : max B qp.size ≤ max (max B qp.size) (∑ i, |st.z i| + 1) := le_max_left _ _
  have r := Admm.solved_residuals (key _ hb1) hs
  have n := Admm.solved_dual_in_normal_cone (hcon _ hb1) hrho (key _ hb1) hs
  refine ⟨r.1, r.2.1, r.2.2.1, r.2.2.2, (qp.cut_approx _).cone_of (fun i => ?_) n, fun hconv w hw => ?_⟩
  · exact lt_of_le_of_lt (QPInf.le_sum_abs st.z i) (lt_of_lt_of_le (by linarith) (le_max_right _ _))
  · have hb2 : max B qp.size ≤ max (max B qp.size) (∑ i, |qp.rows w i|) := le_max_left _ _
    have ha := qp.cut_approx (max (max B qp.size) (∑ i, |qp.rows w i|))
    exact Admm.solved_near_optimal (ha.convex hconv) (hcon _ hb2) hrho (key _ hb2) hs w
      (ha.feasible (fun i => (QPInf.le_sum_abs (qp.rows w) i).trans (le_max_right _ _)) hw)

/-- C212 (ADMM). The status is SOLVED or MAX_ITER_EXCEEDED. -/
theorem solve_status {st : State K N M} (h : solve both lin sq cfg qp xg yg old = some st) :
    st.info.status = .SOLVED ∨ st.info.status = .MAX_ITER_EXCEEDED := by
  obtain ⟨B, hB⟩ := solve_as_finite both lin sq cfg qp xg yg old
  rw [← hB _ (qp.cut_approx B)] at h
  exact Admm.status_cases h

end PolyMPC.AdmmInf

namespace PolyMPC.BoxAdmmInf
open Matrix PolyMPC.Spec PolyMPC.QPBase PolyMPC.QPInfBase
open PolyMPC.Admm (StepResult)
open PolyMPC.BoxAdmm (State KktMat KktIdx)

variable {K : Type*} [Field K] [LinearOrder K] [IsStrictOrderedRing K] {N M : ℕ}
variable {both : Bool} {lin : KktMat K N M → (KktIdx N M → K) → (KktIdx N M → K)} {sq : K → K} {cfg : Settings K}
  {qp : QPInf K N M} {xg : Fin N → K} {yg : Fin M ⊕ Fin N → K} {old : State K N M}

/-- C212 (boxADMM). A run on a QP with infinite bounds is the run on the QP in which they are replaced by any numbers of sufficiently
large modulus. -/
theorem solve_as_finite (both : Bool) (lin : KktMat K N M → (KktIdx N M → K) → (KktIdx N M → K)) (sq : K → K) (cfg : Settings K)
    (qp : QPInf K N M) (xg : Fin N → K) (yg : Fin M ⊕ Fin N → K) (old : State K N M) :
    ∃ B, ∀ qp', qp.Approx B qp' → BoxAdmm.solve both lin sq cfg qp' xg yg old = solve both lin sq cfg qp xg yg old := by
  obtain ⟨B, hB⟩ := loop_approx lin sq cfg qp cfg.maxIter.toNat 1 (setup both cfg qp xg yg old)
  refine ⟨max B (looseBoundsThresh + 1 + qp.size), fun qp' ha => ?_⟩
  unfold BoxAdmm.solve solve
  rw [setup_approx ha (le_max_right _ _), hB qp' (ha.mono (le_max_left _ _))]
  rfl

/-- C212 (boxADMM). What SOLVED means on a QP with infinite bounds. -/
theorem solved_meaning (hc : qp.Consistent) (hrho : 0 < cfg.rho) {st : State K N M}
    (h : solve both lin sq cfg qp xg yg old = some st) (hs : st.info.status = .SOLVED) :
    infNorm (qp.A *ᵥ st.x - st.z) + infNorm (st.x - st.q) ≤
      cfg.epsAbs + cfg.epsRel * max (infNorm (qp.A *ᵥ st.x)) (max (infNorm st.z) (infNorm st.x)) ∧
    infNorm (qp.lagrangianGradient st.x st.y) ≤ cfg.epsAbs + cfg.epsRel *
      max (infNorm (qp.H *ᵥ st.x)) (max (infNorm (qp.Aᵀ *ᵥ QP.yA st.y)) (max (infNorm qp.h) (infNorm (QP.yBox st.y)))) ∧
    st.info.resPrim = infNorm (qp.A *ᵥ st.x - st.z) + infNorm (st.x - st.q) ∧
    st.info.resDual = infNorm (qp.lagrangianGradient st.x st.y) ∧
    QPInf.InNormalCone qp.lower qp.upper (Sum.elim st.z st.q) st.y ∧
    (qp.Convex → ∀ w, qp.Feasible w →
      qp.objective st.x ≤ qp.objective w + st.info.resDual * oneNorm (st.x - w) + st.info.resPrim * oneNorm st.y) := by
  obtain ⟨B, hB⟩ := solve_as_finite both lin sq cfg qp xg yg old
  have key : ∀ B', max B (qp.size) ≤ B' → BoxAdmm.solve both lin sq cfg (qp.cut B') xg yg old = some st := fun B' hb => by
    rw [hB _ ((qp.cut_approx B').mono ((le_max_left _ _).trans hb))]; exact h
  have hcon : ∀ B', max B (qp.size) ≤ B' → (qp.cut B').Consistent := fun B' hb =>
    (qp.cut_approx B').consistent ((le_max_right _ _).trans hb) hc
  have hb1 : max B qp.size ≤ max (max B qp.size) (∑ i, |(Sum.elim st.z st.q : Fin M ⊕ Fin N → K) i| + 1) := le_max_left _ _
  have r := BoxAdmm.solved_residuals (key _ hb1) hs
  have n := (BoxAdmm.solved_kkt (hcon _ hb1) hrho (key _ hb1) hs).1
  refine ⟨r.1, r.2.1, r.2.2.1, r.2.2.2, (qp.cut_approx _).cone_of (fun i => ?_) n, fun hconv w hw => ?_⟩
  · exact lt_of_le_of_lt (QPInf.le_sum_abs (Sum.elim st.z st.q) i) (lt_of_lt_of_le (by linarith) (le_max_right _ _))
  · have hb2 : max B qp.size ≤ max (max B qp.size) (∑ i, |qp.rows w i|) := le_max_left _ _
    have ha := qp.cut_approx (max (max B qp.size) (∑ i, |qp.rows w i|))
    exact BoxAdmm.solved_near_optimal (ha.convex hconv) (hcon _ hb2) hrho (key _ hb2) hs w
      (ha.feasible (fun i => (QPInf.le_sum_abs (qp.rows w) i).trans (le_max_right _ _)) hw)

end PolyMPC.BoxAdmmInf

namespace PolyMPC.AdmmInf
open Matrix PolyMPC.Spec PolyMPC.QPBase PolyMPC.QPInfBase
open PolyMPC.Admm (State KktMat KktIdx ExactSolver stepSize guessError rowEntry)

variable {N M : ℕ} {both : Bool} {lin : KktMat ℝ N M → (KktIdx N M → ℝ) → (KktIdx N M → ℝ)} {sq : ℝ → ℝ} {cfg : Settings ℝ}
  {qp : QPInf ℝ N M} {xg : Fin N → ℝ} {yg : Fin M ⊕ Fin N → ℝ} {old : State ℝ N M}

theorem stepSize_approx {B B' : ℝ} {qp' qp'' : QP ℝ N M} (h : qp.Approx B qp') (hB : looseBoundsThresh + 1 + qp.size ≤ B)
    (h' : qp.Approx B' qp'') (hB' : looseBoundsThresh + 1 + qp.size ≤ B') (cfg : Settings ℝ) (j : Fin M ⊕ Fin N) :
    stepSize qp' cfg.rho j = stepSize qp'' cfg.rho j := by
  have old : State ℝ N M := Admm.fresh cfg 0 0 0
  have e1 := Admm.stepSize_eq (both := true) (qp := qp') (xg := 0) (yg := 0) (old := old) cfg j
  have e2 := Admm.stepSize_eq (both := true) (qp := qp'') (xg := 0) (yg := 0) (old := old) cfg j
  rw [← e1, ← e2, setup_approx h hB, setup_approx h' hB']

/-- The constants the iteration bounds ask for exist, and serve for all large finite bounds at once. -/
theorem bound_constants (hsig : 0 < cfg.sigma) (hrho : 0 < cfg.rho) (heps : 0 < cfg.epsAbs) {xs : Fin N → ℝ}
    {ys : Fin M ⊕ Fin N → ℝ} (c : ℝ) (hc : 0 < c) :
    ∃ (mu d : ℝ) (L : ℕ), 0 < mu ∧ mu ≤ cfg.sigma ∧ 0 < d ∧ 2 * d ≤ cfg.epsAbs ∧ 1 ≤ L ∧
      ∀ B qp', looseBoundsThresh + 1 + qp.size ≤ B → qp.Approx B qp' →
        (∀ j, mu ≤ stepSize qp' cfg.rho j) ∧ (∀ j, d * (1 + ∑ i, |rowEntry qp' j i|) ≤ cfg.epsAbs) ∧
        (∀ j, d * (1 + ∑ i, |qp'.A j i|) + 2 * d ≤ cfg.epsAbs) ∧
        (∀ i, d * (cfg.sigma + ∑ l, |qp'.H i l| + ∑ j, stepSize qp' cfg.rho j * |rowEntry qp' j i|) ≤ cfg.epsAbs) ∧
        guessError qp' cfg xg xs yg ys ≤ L * (c * mu * d ^ 2) := by
  set B0 : ℝ := looseBoundsThresh + 1 + qp.size with hB0
  set q0 := qp.cut B0 with hq0
  have hsz : ∀ j, 0 < stepSize q0 cfg.rho j := fun j => by
    unfold stepSize; split_ifs <;> positivity
  set S := cfg.sigma⁻¹ + ∑ j, (stepSize q0 cfg.rho j)⁻¹ with hS
  have hSj : ∀ j, (stepSize q0 cfg.rho j)⁻¹ ≤ S := fun j => by
    have := Finset.single_le_sum (f := fun j => (stepSize q0 cfg.rho j)⁻¹) (fun j _ => (inv_pos.mpr (hsz j)).le) (Finset.mem_univ j)
    have h2 := inv_pos.mpr hsig
    rw [hS]; linarith
  have hSs : cfg.sigma⁻¹ ≤ S := le_add_of_nonneg_right (Finset.sum_nonneg fun j _ => (inv_pos.mpr (hsz j)).le)
  have hS0 : 0 < S := lt_of_lt_of_le (inv_pos.mpr hsig) hSs
  set f1 : Fin M ⊕ Fin N → ℝ := fun j => 1 + ∑ i, |rowEntry q0 j i| with hf1
  set f2 : Fin N → ℝ := fun i => cfg.sigma + ∑ l, |q0.H i l| + ∑ j, stepSize q0 cfg.rho j * |rowEntry q0 j i| with hf2
  have p1 : ∀ j, 0 ≤ f1 j := fun j => add_nonneg zero_le_one (Finset.sum_nonneg fun _ _ => abs_nonneg _)
  have p2 : ∀ i, 0 ≤ f2 i := fun i => add_nonneg (add_nonneg hsig.le (Finset.sum_nonneg fun _ _ => abs_nonneg _))
    (Finset.sum_nonneg fun j _ => mul_nonneg (hsz j).le (abs_nonneg _))
  set T := 3 + ∑ j, f1 j + ∑ i, f2 i with hT
  have t1 : ∀ j, f1 j + 2 ≤ T := fun j => by
    have a := Finset.single_le_sum (f := f1) (fun j _ => p1 j) (Finset.mem_univ j)
    have b := Finset.sum_nonneg (f := f2) (s := Finset.univ) fun j _ => p2 j
    rw [hT]; linarith
  have t2 : ∀ j, f2 j ≤ T := fun j => by
    have a := Finset.single_le_sum (f := f2) (fun j _ => p2 j) (Finset.mem_univ j)
    have b := Finset.sum_nonneg (f := f1) (s := Finset.univ) fun j _ => p1 j
    rw [hT]; linarith
  have hT3 : 3 ≤ T := by
    have a := Finset.sum_nonneg (f := f2) (s := Finset.univ) fun j _ => p2 j
    have b := Finset.sum_nonneg (f := f1) (s := Finset.univ) fun j _ => p1 j
    rw [hT]; linarith
  have hT0 : 0 < T := by linarith
  have hd : 0 < cfg.epsAbs / T := div_pos heps hT0
  have hdT : cfg.epsAbs / T * T = cfg.epsAbs := div_mul_cancel₀ _ hT0.ne'
  have hmu : 0 < S⁻¹ := inv_pos.mpr hS0
  have hden : 0 < c * S⁻¹ * (cfg.epsAbs / T) ^ 2 := by positivity
  obtain ⟨L, hL⟩ := exists_nat_ge (guessError q0 cfg xg xs yg ys / (c * S⁻¹ * (cfg.epsAbs / T) ^ 2))
  refine ⟨S⁻¹, cfg.epsAbs / T, L + 1, hmu, (inv_le_comm₀ hS0 hsig).mpr hSs, hd, ?_, by omega, fun B qp' hB ha => ?_⟩
  · have := mul_le_mul_of_nonneg_left (show (2 : ℝ) ≤ T by linarith) hd.le
    rw [hdT] at this; linarith
  have es : ∀ j, stepSize qp' cfg.rho j = stepSize q0 cfg.rho j :=
    stepSize_approx ha hB (qp.cut_approx B0) (le_refl _) cfg
  have eA : qp'.A = q0.A := ha.A
  have eH : qp'.H = q0.H := ha.H
  have er : ∀ j i, rowEntry qp' j i = rowEntry q0 j i := fun j i => by
    cases j <;> simp only [rowEntry, eA]
  have erow : ∀ x, qp'.rows x = q0.rows x := fun x => by unfold QP.rows; rw [eA]
  refine ⟨fun j => ?_, fun j => ?_, fun j => ?_, fun i => ?_, ?_⟩
  · rw [es]; exact (inv_le_comm₀ hS0 (hsz j)).mpr (hSj j)
  · simp only [er]
    have := mul_le_mul_of_nonneg_left (show f1 j ≤ T by linarith [t1 j]) hd.le
    rw [hdT] at this; exact this
  · have := mul_le_mul_of_nonneg_left (t1 (Sum.inl j)) hd.le
    rw [hdT, mul_add] at this
    rw [eA]
    have e : cfg.epsAbs / T * (1 + ∑ i, |q0.A j i|) = cfg.epsAbs / T * f1 (Sum.inl j) := rfl
    rw [e]; linarith
  · simp only [er, es, eH]
    have := mul_le_mul_of_nonneg_left (t2 i) hd.le
    rw [hdT] at this; exact this
  · have e : guessError qp' cfg xg xs yg ys = guessError q0 cfg xg xs yg ys := by
      unfold guessError; simp only [es, erow]
    rw [e]
    rw [div_le_iff₀ hden] at hL
    push_cast
    nlinarith [hden]

/-- C212 (ADMM). On every convex QP with infinite bounds that has a KKT point there is an iteration limit from which on SOLVED is
returned. -/
theorem eventually_solved_inf (hex : ExactSolver both lin) (hconv : qp.Convex) (hkkt : ∃ x y, qp.KKT x y)
    (hsig : 0 < cfg.sigma) (hrho : 0 < cfg.rho) (ha : 0 < cfg.alpha) (ha2 : cfg.alpha < 2)
    (hadapt : cfg.adaptiveRho = false) (hcheck : 0 < cfg.checkTermination) (heps : 0 < cfg.epsAbs) (hrel : 0 ≤ cfg.epsRel) :
    ∃ n : ℤ, ∀ maxIter ≥ n, ∃ st, solve both lin sq { cfg with maxIter := maxIter } qp xg yg old = some st ∧
      st.info.status = .SOLVED ∧ st.info.iter ≤ n := by
  obtain ⟨xs, ys, hk⟩ := hkkt
  obtain ⟨mu, d, L, h1, h2, h3, _, h4, hall⟩ := bound_constants (qp := qp) (xg := xg) (yg := yg) (xs := xs) (ys := ys) hsig hrho heps
    (cfg.alpha * (2 - cfg.alpha)) (mul_pos ha (by linarith))
  refine ⟨cfg.checkTermination * L, fun maxIter hm => ?_⟩
  obtain ⟨B, hB⟩ := solve_as_finite both lin sq { cfg with maxIter := maxIter } qp xg yg old
  set B' := max B (max (looseBoundsThresh + 1 + qp.size) (∑ i, |qp.rows xs i|)) with hB'
  have hap := qp.cut_approx B'
  obtain ⟨g1, g2, _, g3, g4⟩ := hall B' _ ((le_max_left _ _).trans (le_max_right _ _)) hap
  rw [← hB _ (hap.mono (le_max_left _ _))]
  exact Admm.iteration_bound (cfg := { cfg with maxIter := maxIter }) hex (hap.convex hconv)
    (hap.kkt (fun i => (QPInf.le_sum_abs (qp.rows xs) i).trans ((le_max_right _ _).trans (le_max_right _ _))) hk)
    hsig hrho ha ha2 hadapt hcheck heps.le hrel h1 h2 g1 h3 g2 g3 h4 g4 hm

end PolyMPC.AdmmInf

namespace PolyMPC.BoxAdmmInf
open Matrix PolyMPC.Spec PolyMPC.QPBase PolyMPC.QPInfBase
open PolyMPC.BoxAdmm (State KktMat KktIdx ExactSolver CleanCorner)

variable {N M : ℕ} {both : Bool} {lin : KktMat ℝ N M → (KktIdx N M → ℝ) → (KktIdx N M → ℝ)} {sq : ℝ → ℝ} {cfg : Settings ℝ}
  {qp : QPInf ℝ N M} {xg : Fin N → ℝ} {yg : Fin M ⊕ Fin N → ℝ} {old : State ℝ N M}

/-- C212 (boxADMM). On every convex QP with infinite bounds that has a KKT point there is an iteration limit from which on SOLVED is
returned. -/
theorem eventually_solved_inf (hex : ExactSolver both lin) (hconv : qp.Convex) (hkkt : ∃ x y, qp.KKT x y)
    (hsig : 0 < cfg.sigma) (hrho : 0 < cfg.rho) (halpha : cfg.alpha = 1) (ho : CleanCorner old.kkt)
    (hadapt : cfg.adaptiveRho = false) (hcheck : 0 < cfg.checkTermination) (heps : 0 < cfg.epsAbs) (hrel : 0 ≤ cfg.epsRel) :
    ∃ n : ℤ, ∀ maxIter ≥ n, ∃ st, solve both lin sq { cfg with maxIter := maxIter } qp xg yg old = some st ∧
      st.info.status = .SOLVED ∧ st.info.iter ≤ n := by
  obtain ⟨xs, ys, hk⟩ := hkkt
  obtain ⟨mu, d, L, h1, h2, h3, h5, h4, hall⟩ := AdmmInf.bound_constants (qp := qp) (xg := xg) (yg := yg) (xs := xs) (ys := ys) hsig hrho
    heps 1 one_pos
  refine ⟨cfg.checkTermination * L, fun maxIter hm => ?_⟩
  obtain ⟨B, hB⟩ := solve_as_finite both lin sq { cfg with maxIter := maxIter } qp xg yg old
  set B' := max B (max (looseBoundsThresh + 1 + qp.size) (∑ i, |qp.rows xs i|)) with hB'
  have hap := qp.cut_approx B'
  obtain ⟨g1, _, g2, g3, g4⟩ := hall B' _ ((le_max_left _ _).trans (le_max_right _ _)) hap
  rw [← hB _ (hap.mono (le_max_left _ _))]
  rw [one_mul] at g4
  exact BoxAdmm.iteration_bound (cfg := { cfg with maxIter := maxIter }) hex (hap.convex hconv)
    (hap.kkt (fun i => (QPInf.le_sum_abs (qp.rows xs) i).trans ((le_max_right _ _).trans (le_max_right _ _))) hk)
    hsig hrho halpha ho hadapt hcheck heps.le hrel h1 h2 g1 h3 h5 g2 g3 h4 g4 hm

end PolyMPC.BoxAdmmInf

/-! ## Non-vacuity -/

namespace PolyMPC.AdmmInf
open Matrix PolyMPC.Spec PolyMPC.QPBase PolyMPC.QPInfBase

/-- Minimise `½ x² - x` subject to `x ≤ 1/2` (as a row without lower bound) and `x ≥ -2` (as a bound without upper bound). -/
def exampleInf (K : Type*) [Field K] [LinearOrder K] [IsStrictOrderedRing K] : QPInf K 1 1 where
  H := fun _ _ => 1
  h := fun _ => -1
  A := fun _ _ => 1
  Alb := fun _ => ⊥
  Aub := fun _ => ((1 / 2 : K) : WithTop K)
  xlb := fun _ => ((-2 : K) : WithBot K)
  xub := fun _ => ⊤

/-- ADMM solves the example and stops after ten passes. -/
example : ((solve false Admm.exampleLin id Admm.exampleCfg (exampleInf ℚ) (fun _ => 0) (fun _ => 0)
    (Admm.fresh Admm.exampleCfg (fun _ => 0) (fun _ => 0) 0)).map fun st => st.info.status) = some .SOLVED := by
  decide +kernel

/-- So does boxADMM. -/
example : ((BoxAdmmInf.solve false BoxAdmm.exampleLin id Admm.exampleCfg (exampleInf ℚ) (fun _ => 0) (fun _ => 0)
    (BoxAdmm.fresh Admm.exampleCfg (fun _ => 0) (fun _ => 0) 0)).map fun st => st.info.status) = some .SOLVED := by
  decide +kernel

/-- The hypotheses of the theorems hold for the example; its KKT point is `x = 1/2` with multipliers `(1/2, 0)`. -/
example : (exampleInf ℝ).Convex ∧ (exampleInf ℝ).Consistent ∧
    (exampleInf ℝ).KKT (fun _ => 1 / 2) (Sum.elim (fun _ => 1 / 2) (fun _ => 0)) := by
  refine ⟨⟨rfl, fun x => ?_⟩, fun i => ⟨0, ?_, ?_⟩, ?_, fun i => ?_⟩
  · simp only [exampleInf, dotProduct, Matrix.mulVec, Finset.univ_unique, Finset.sum_singleton]
    nlinarith [mul_self_nonneg (x default)]
  · rcases i with i | i
    · exact bot_le
    · exact WithBot.coe_le_coe.mpr (by norm_num)
  · rcases i with i | i
    · exact WithTop.coe_le_coe.mpr (by norm_num)
    · exact le_top
  · funext i
    simp [QPInf.lagrangianGradient, exampleInf, Matrix.mulVec, dotProduct, QP.yA, QP.yBox, Matrix.transpose]
    norm_num
  · rcases i with i | i
    · have e : (exampleInf ℝ).rows (fun _ => 1 / 2) (Sum.inl i) = 1 / 2 := by
        simp [QPInf.rows, exampleInf, Matrix.mulVec, dotProduct]
      rw [e]
      exact ⟨⟨bot_le, le_refl _⟩, fun _ => rfl, fun h => absurd h (by simp)⟩
    · exact ⟨⟨WithBot.coe_le_coe.mpr (by simp [QPInf.rows]; norm_num), le_top⟩, fun h => absurd h (by simp), fun h => absurd h (by simp)⟩

end PolyMPC.AdmmInf
