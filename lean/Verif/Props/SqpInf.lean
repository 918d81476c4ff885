import Verif.Lemmas.SqpInf
import Verif.Spec.NLPInf
import Verif.Props.QPInf
import Verif.Props.SqpInexact

/-!
# SQP with infinite bounds: C213, C214
-/

set_option linter.unusedSectionVars false

namespace PolyMPC.BoxAdmmInf
open Matrix PolyMPC.Spec PolyMPC.QPBase PolyMPC.QPInfBase
open PolyMPC.BoxAdmm (State KktMat KktIdx CheckedAtEnd)

variable {K : Type*} [Field K] [LinearOrder K] [IsStrictOrderedRing K] {N M : ℕ}
variable {both : Bool} {lin : KktMat K N M → (KktIdx N M → K) → (KktIdx N M → K)} {sq : K → K} {cfg : Settings K}
  {qp : QPInf K N M} {xg : Fin N → K} {yg : Fin M ⊕ Fin N → K} {old : State K N M}

/-- The reported residuals of boxADMM with infinite bounds, whatever the status. -/
theorem reported_residuals_inf (hd : CheckedAtEnd cfg) (hc : qp.Consistent) (hrho : 0 < cfg.rho) {st : State K N M}
    (h : solve both lin sq cfg qp xg yg old = some st) :
    infNorm (qp.rows st.x - st.aux) ≤ st.info.resPrim ∧ st.info.resDual = infNorm (qp.lagrangianGradient st.x st.y) ∧
    QPInf.InNormalCone qp.lower qp.upper st.aux st.y := by
  obtain ⟨B, hB⟩ := solve_as_finite both lin sq cfg qp xg yg old
  obtain ⟨C, hC⟩ : ∃ C, C = max (max B qp.size) (∑ i, |st.aux i| + 1) := ⟨_, rfl⟩
  have ha := qp.cut_approx C
  have h1 : B ≤ C := by rw [hC]; exact (le_max_left _ _).trans (le_max_left _ _)
  have h2 : qp.size ≤ C := by rw [hC]; exact (le_max_right _ _).trans (le_max_left _ _)
  have h3 : ∑ i, |st.aux i| + 1 ≤ C := by rw [hC]; exact le_max_right _ _
  have hr : BoxAdmm.solve both lin sq cfg (qp.cut C) xg yg old = some st := by rw [hB _ (ha.mono h1)]; exact h
  obtain ⟨r1, r2, r3⟩ := BoxAdmm.reported_residuals hd (ha.consistent h2 hc) hrho hr
  refine ⟨?_, ?_, ha.cone_of (fun i => ?_) r3⟩
  · rw [r1, ← ha.rows]; exact BoxAdmm.rows_sub_aux_le (qp.cut C) st
  · rw [r2, ha.lagrangian]
  · linarith [QPInf.le_sum_abs st.aux i]

end PolyMPC.BoxAdmmInf

namespace PolyMPC.SqpInf
open Matrix PolyMPC.Spec PolyMPC.QPInfBase
open PolyMPC.Sqp (Dual Settings Status Problem Precond QPSolver)

universe u

variable {K : Type u} [Field K] [LinearOrder K] [IsStrictOrderedRing K] {n me mi : ℕ}
variable {prec : Precond K n (me + mi)} {qps : QPSolver K n (me + mi)}

/-! ## C213: the preconditioners, the QP solver and the line search treat infinite bounds as large ones -/

theorem identity_limit (m : ℕ) : (identityInf K n m).Limit where
  fails _ _ h := absurd h (by simp [identityInf])
  computes mem qp mem1 q1 h B1 := by
    obtain rfl : qp = q1 := congrArg Prod.snd (Option.some.inj h)
    exact ⟨B1, fun qp' ha => ⟨qp', rfl, ha, ha.H, ha.h, ha.A⟩⟩

/-- Two QPs with the same matrices. -/
structure SameData {N M : ℕ} (q q' : QP K N M) : Prop where
  H : q'.H = q.H
  h : q'.h = q.h
  A : q'.A = q.A

theorem ruizSweep_data {N M : ℕ} [NeZero N] [NeZero M] (var : Ruiz.Variant K N M) (sq : K → K) (w : Bool)
    (P : Ruiz.State K N M) {q q' : QP K N M} (h : SameData q q') :
    (Ruiz.sweep var sq w P q = none ∧ Ruiz.sweep var sq w P q' = none) ∨
    ∃ P1 r r' nu, Ruiz.sweep var sq w P q = some (P1, r, nu) ∧ Ruiz.sweep var sq w P q' = some (P1, r', nu) ∧ SameData r r' ∧
      r'.Alb = q'.Alb ∧ r'.Aub = q'.Aub ∧ r'.xlb = q'.xlb ∧ r'.xub = q'.xub := by
  obtain ⟨hH, hh, hA⟩ := h
  cases w with
  | true =>
    simp only [Ruiz.sweep, Ruiz.scaleMatrices, Ruiz.scaleCost, hH, hh, hA, if_true]
    split_ifs with h0
    · exact Or.inl ⟨rfl, rfl⟩
    · exact Or.inr ⟨_, _, _, _, rfl, rfl, ⟨rfl, rfl, rfl⟩, rfl, rfl, rfl, rfl⟩
  | false =>
    simp only [Ruiz.sweep, Ruiz.scaleMatrices, Ruiz.scaleCost, hH, hh, hA, Bool.false_eq_true, if_false]
    split_ifs with h0
    · exact Or.inl ⟨rfl, rfl⟩
    · exact Or.inr ⟨_, _, _, _, rfl, rfl, ⟨rfl, rfl, rfl⟩, rfl, rfl, rfl, rfl⟩

/-- The sweeps of the equilibration do not read the bounds. -/
theorem ruizLoop_data {N M : ℕ} [NeZero N] [NeZero M] (var : Ruiz.Variant K N M) (sq : K → K) (w : Bool) (cont : K → Bool) (fuel : ℕ)
    (P : Ruiz.State K N M) {q q' : QP K N M} (h : SameData q q') (norm : K) :
    (Ruiz.loop var sq w cont fuel P q norm = none ∧ Ruiz.loop var sq w cont fuel P q' norm = none) ∨
    ∃ P1 r r', Ruiz.loop var sq w cont fuel P q norm = some (P1, r) ∧ Ruiz.loop var sq w cont fuel P q' norm = some (P1, r') ∧ SameData r r' ∧
      r'.Alb = q'.Alb ∧ r'.Aub = q'.Aub ∧ r'.xlb = q'.xlb ∧ r'.xub = q'.xub := by
  induction fuel generalizing P q q' norm with
  | zero => exact Or.inr ⟨P, q, q', rfl, rfl, h, rfl, rfl, rfl, rfl⟩
  | succ k ih =>
    simp only [Ruiz.loop]
    by_cases hc : cont norm
    · rw [if_pos hc, if_pos hc]
      rcases ruizSweep_data var sq w P h with ⟨h1, h2⟩ | ⟨P1, r, r', nu, h1, h2, h3, b1, b2, b3, b4⟩
      · rw [h1, h2]
        exact Or.inl ⟨rfl, rfl⟩
      · rw [h1, h2]
        rcases ih P1 h3 nu with h4 | ⟨P2, t, t', h4, h5, h6, c1, c2, c3, c4⟩
        · exact Or.inl h4
        · exact Or.inr ⟨P2, t, t', h4, h5, h6, c1.trans b1, c2.trans b2, c3.trans b3, c4.trans b4⟩
    · rw [if_neg hc, if_neg hc]
      exact Or.inr ⟨P, q, q', rfl, rfl, h, rfl, rfl, rfl, rfl⟩

theorem scaleLower_approx {B C e l : K} {lb : WithBot K} (he : 0 < e) (hB : C ≤ B * e) (h : LowerApprox B lb l) :
    LowerApprox C (scaleLower lb e) (l * e) := by
  cases lb with
  | bot =>
    have h' : l ≤ -B := h
    change l * e ≤ -C
    nlinarith
  | coe b =>
    have h' : l = b := h
    rw [h']; rfl

theorem scaleUpper_approx {B C e u : K} {ub : WithTop K} (he : 0 < e) (hB : C ≤ B * e) (h : UpperApprox B ub u) :
    UpperApprox C (scaleUpper ub e) (u * e) := by
  cases ub with
  | top =>
    have h' : B ≤ u := h
    change C ≤ u * e
    nlinarith
  | coe b =>
    have h' : u = b := h
    rw [h']; rfl

/-- The equilibration, with positive factors. -/
theorem ruiz_limit {m : ℕ} [NeZero n] [NeZero m] {var : Ruiz.Variant K n m} (hz : 0 < var.approxZero) (hh : Ruiz.HNormNonneg var)
    {sq : K → K} (hsq : IsSqrt sq) : (ruizInf var sq).Limit where
  fails mem qp h := by
    refine ⟨0, fun qp' ha => ?_⟩
    have hs : SameData (data qp) qp' := ⟨ha.H, ha.h, ha.A⟩
    rcases ruizLoop_data var sq false (fun norm => decide (1 - norm ≥ Ruiz.tolerance)) 4 Ruiz.init hs (10 * Ruiz.tolerance) with
      ⟨-, h2⟩ | ⟨P1, r, r', h1, -⟩
    · change Ruiz.compute var sq mem qp' = none
      unfold Ruiz.compute
      rw [h2]; rfl
    · change Option.map _ _ = none at h
      rw [h1] at h
      exact absurd h (by simp)
  computes mem qp P q1 h B1 := by
    change Option.map _ _ = _ at h
    rw [Option.map_eq_some_iff] at h
    obtain ⟨⟨P', r⟩, hl, he⟩ := h
    obtain rfl : P' = P := congrArg Prod.fst he
    have hq1 : q1 = _ := (congrArg Prod.snd he).symm
    obtain ⟨mD, mE, g, cs, k1, k2, -, k4, k5, -⟩ := Ruiz.loop_spec hz hh hsq 4 hl
    have hD (i) : 0 < P'.D i := by rw [k4]; simpa [Ruiz.init] using k1 i
    have hE (i) : 0 < P'.E i := by rw [k5]; simpa [Ruiz.init] using k2 i
    have sE : 0 ≤ ∑ i, (P'.E i)⁻¹ := Finset.sum_nonneg fun i _ => (inv_pos.mpr (hE i)).le
    have sD : 0 ≤ ∑ i, P'.D i := Finset.sum_nonneg fun i _ => (hD i).le
    have lE (i) : (P'.E i)⁻¹ ≤ ∑ i, (P'.E i)⁻¹ :=
      Finset.single_le_sum (f := fun i => (P'.E i)⁻¹) (fun i _ => (inv_pos.mpr (hE i)).le) (Finset.mem_univ i)
    have lD (i) : P'.D i ≤ ∑ i, P'.D i := Finset.single_le_sum (f := fun i => P'.D i) (fun i _ => (hD i).le) (Finset.mem_univ i)
    have bE (i) : B1 ≤ |B1| * (∑ i, (P'.E i)⁻¹ + ∑ i, P'.D i) * P'.E i := by
      have h1 : 1 ≤ (∑ i, (P'.E i)⁻¹ + ∑ i, P'.D i) * P'.E i := by
        rw [← inv_mul_cancel₀ (hE i).ne']
        exact mul_le_mul_of_nonneg_right (by linarith [lE i]) (hE i).le
      have h2 := mul_le_mul_of_nonneg_left h1 (abs_nonneg B1)
      linarith [le_abs_self B1]
    have bD (i) : B1 ≤ |B1| * (∑ i, (P'.E i)⁻¹ + ∑ i, P'.D i) * (P'.D i)⁻¹ := by
      have h1 : 1 ≤ (∑ i, (P'.E i)⁻¹ + ∑ i, P'.D i) * (P'.D i)⁻¹ := by
        rw [← mul_inv_cancel₀ (hD i).ne']
        exact mul_le_mul_of_nonneg_right (by linarith [lD i]) (inv_pos.mpr (hD i)).le
      have h2 := mul_le_mul_of_nonneg_left h1 (abs_nonneg B1)
      linarith [le_abs_self B1]
    refine ⟨|B1| * (∑ i, (P'.E i)⁻¹ + ∑ i, P'.D i), fun qp' ha => ?_⟩
    have hs : SameData (data qp) qp' := ⟨ha.H, ha.h, ha.A⟩
    rcases ruizLoop_data var sq false (fun norm => decide (1 - norm ≥ Ruiz.tolerance)) 4 Ruiz.init hs (10 * Ruiz.tolerance) with
      ⟨h1, -⟩ | ⟨P1, r1, r', h1, h2, hd, b1, b2, b3, b4⟩
    · rw [h1] at hl; exact absurd hl (by simp)
    · rw [h1] at hl
      obtain ⟨rfl, rfl⟩ : P1 = P' ∧ r1 = r := by
        have := Option.some.inj hl
        exact ⟨congrArg Prod.fst this, congrArg Prod.snd this⟩
      refine ⟨Ruiz.scaleBounds P1 r', ?_, ?_, ?_, ?_, ?_⟩
      · change Ruiz.compute var sq mem qp' = _
        unfold Ruiz.compute
        rw [h2]; rfl
      · rw [hq1]
        refine ⟨hd.H, hd.h, hd.A, fun i => ?_, fun i => ?_⟩ <;> rcases i with i | i
        · change LowerApprox B1 (scaleLower (qp.Alb i) (P1.E i)) (r'.Alb i * P1.E i)
          rw [b1]
          exact scaleLower_approx (hE i) (bE i) (ha.lo (Sum.inl i))
        · change LowerApprox B1 (scaleLower (qp.xlb i) (P1.D i)⁻¹) (r'.xlb i * (P1.D i)⁻¹)
          rw [b3]
          exact scaleLower_approx (inv_pos.mpr (hD i)) (bD i) (ha.lo (Sum.inr i))
        · change UpperApprox B1 (scaleUpper (qp.Aub i) (P1.E i)) (r'.Aub i * P1.E i)
          rw [b2]
          exact scaleUpper_approx (hE i) (bE i) (ha.up (Sum.inl i))
        · change UpperApprox B1 (scaleUpper (qp.xub i) (P1.D i)⁻¹) (r'.xub i * (P1.D i)⁻¹)
          rw [b4]
          exact scaleUpper_approx (inv_pos.mpr (hD i)) (bD i) (ha.up (Sum.inr i))
      · rw [hq1]
        change (Ruiz.unscale P1 (Ruiz.scaleBounds P1 r')).H = (Ruiz.unscale P1 (data _)).H
        simp only [Ruiz.unscale, Ruiz.scaleBounds, data, hd.H]
      · rw [hq1]
        change (Ruiz.unscale P1 (Ruiz.scaleBounds P1 r')).h = (Ruiz.unscale P1 (data _)).h
        simp only [Ruiz.unscale, Ruiz.scaleBounds, data, hd.h]
      · rw [hq1]
        change (Ruiz.unscale P1 (Ruiz.scaleBounds P1 r')).A = (Ruiz.unscale P1 (data _)).A
        simp only [Ruiz.unscale, Ruiz.scaleBounds, data, hd.A]

theorem boxQps_limit {N M : ℕ} (both : Bool) (lin : BoxAdmm.KktMat ℝ N M → (BoxAdmm.KktIdx N M → ℝ) → (BoxAdmm.KktIdx N M → ℝ)) (sq : ℝ → ℝ)
    (cfg : QPBase.Settings ℝ) : (boxQpsInf both lin sq cfg).Limit := by
  intro mem qp
  obtain ⟨B, hB⟩ := BoxAdmmInf.solve_as_finite both lin sq cfg qp 0 0 mem
  refine ⟨B, fun qp' ha => ?_⟩
  have e := hB qp' ha
  simp only [SqpSparse.boxQps, boxQpsInf]
  rw [e]
  cases BoxAdmmInf.solve both lin sq cfg qp 0 0 mem <;> rfl

theorem default_family (eps : K) (cfg : Settings K) (prob : Problem K n me mi) (bd : Bounds K n mi) (pi : PrecondInf prec) (qi : QPSolverInf qps) :
    Family (defaultEnv eps cfg prob bd pi qi) (Sqp.defaultEnv eps cfg prob) where
  cfg _ := rfl
  prob _ := rfl
  hessUpdate _ := rfl
  regularise _ := rfl
  bd _ := rfl
  stepSize h lam x p c := lineSearch_ev eps cfg prob bd h lam x p c

/-- C213. A run of the default solver with infinite bounds is the run with these bounds replaced by any numbers of sufficiently large
modulus: both fail, or both return and leave the same primal and dual solution, status, iteration counts, norms, cost and callback history. -/
theorem solve_as_finite [NeZero n] {pi : PrecondInf prec} {qi : QPSolverInf qps} (hp : pi.Limit) (hq : qi.Limit) (eps : K) (cfg : Settings K)
    (prob : Problem K n me mi) (bd : Bounds K n mi) (sI : State K n me mi prec qps) :
    ∃ B, ∀ bd' : Sqp.Bounds K n mi, bd.Approx B bd' → ∀ s, Same sI s →
      Agree (solve (defaultEnv eps cfg prob bd pi qi) sI) (Sqp.solve (Sqp.defaultEnv eps cfg prob bd') s) :=
  solve_ev (env := defaultEnv eps cfg prob bd pi qi) (default_family eps cfg prob bd pi qi) hq hp sI

/-- C213 with the default QP solver. -/
theorem box_solve_as_finite [NeZero n] (both : Bool)
    (lin : BoxAdmm.KktMat ℝ n (me + mi) → (BoxAdmm.KktIdx n (me + mi) → ℝ) → (BoxAdmm.KktIdx n (me + mi) → ℝ)) (sq : ℝ → ℝ)
    (qcfg : QPBase.Settings ℝ) (eps : ℝ) (cfg : Settings ℝ) (prob : Problem ℝ n me mi) (bd : Bounds ℝ n mi)
    (sI : State ℝ n me mi (Sqp.identityPrecond ℝ n (me + mi)) (SqpSparse.boxQps both lin sq qcfg)) :
    ∃ B, ∀ bd' : Sqp.Bounds ℝ n mi, bd.Approx B bd' → ∀ s, Same sI s →
      Agree (solve (boxEnv both lin sq qcfg eps cfg prob bd) sI) (Sqp.solve (Sqp.boxEnv both lin sq qcfg eps cfg prob bd') s) :=
  solve_as_finite (identity_limit _) (boxQps_limit both lin sq qcfg) eps cfg prob bd sI

/-- A finite state with the same members. -/
def toFinite (sI : State K n me mi prec qps) : Sqp.State K n me mi prec qps where
  x := sI.x
  lam := sI.lam
  lamK := sI.lamK
  qp := data sI.qp
  cost := sI.cost
  iter := sI.iter
  qpIter := sI.qpIter
  status := sI.status
  lagGradient := sI.lagGradient
  stepPrev := sI.stepPrev
  primalNorm := sI.primalNorm
  dualNorm := sI.dualNorm
  maxViolation := sI.maxViolation
  precMem := sI.precMem
  qpMem := sI.qpMem
  callbacks := sI.callbacks

theorem toFinite_same (sI : State K n me mi prec qps) : Same sI (toFinite sI) :=
  ⟨rfl, rfl, rfl, rfl, rfl, rfl, rfl, rfl, rfl, rfl, rfl, rfl, rfl, rfl, rfl, rfl, rfl, rfl⟩

/-- A finished run has finite counterparts. -/
theorem finite_run [NeZero n] {pi : PrecondInf prec} {qi : QPSolverInf qps} (hp : pi.Limit) (hq : qi.Limit) {eps : K} {cfg : Settings K}
    {prob : Problem K n me mi} {bd : Bounds K n mi} {sI rI : State K n me mi prec qps}
    (h : solve (defaultEnv eps cfg prob bd pi qi) sI = some rI) (C : K) :
    ∃ bd' r, bd.Approx C bd' ∧ Sqp.solve (Sqp.defaultEnv eps cfg prob bd') (toFinite sI) = some r ∧ Same rI r := by
  obtain ⟨B, hB⟩ := solve_as_finite hp hq eps cfg prob bd sI
  refine ⟨bd.cut (max B C), ?_⟩
  have h1 := hB _ ((bd.cut_approx (max B C)).mono (le_max_left _ _)) _ (toFinite_same sI)
  rw [h] at h1
  cases hr : Sqp.solve (Sqp.defaultEnv eps cfg prob (bd.cut (max B C))) (toFinite sI) with
  | none => rw [hr] at h1; exact h1.elim
  | some r =>
    rw [hr] at h1
    exact ⟨r, (bd.cut_approx _).mono (le_max_right _ _), rfl, h1⟩

/-- The largest violation is at most `tol` iff every constraint is violated by at most `tol`; absent bounds are not violated. -/
theorem maxViolation_le_iff [NeZero n] (prob : Problem K n me mi) (bd : Bounds K n mi) (x : Fin n → K) {tol : K} :
    maxConstraintsViolation prob bd x ≤ tol ↔ 0 ≤ tol ∧
      ViolatedByAtMostInf tol (prob.eq x) (prob.ineq x) bd.lbg bd.ubg x bd.lbx bd.ubx := by
  have el (lb : WithBot K) (v : K) : subLower lb v ≤ (tol : WithBot K) ↔ lb ≤ ((v + tol : K) : WithBot K) := by
    cases lb with
    | bot => exact ⟨fun _ => bot_le, fun _ => bot_le⟩
    | coe l =>
      change ((l - v : K) : WithBot K) ≤ _ ↔ _
      rw [WithBot.coe_le_coe, WithBot.coe_le_coe, sub_le_iff_le_add']
  have eu (ub : WithTop K) (v : K) : subUpper v ub ≤ (tol : WithBot K) ↔ ((v - tol : K) : WithTop K) ≤ ub := by
    cases ub with
    | top => exact ⟨fun _ => le_top, fun _ => bot_le⟩
    | coe l =>
      change ((v - l : K) : WithBot K) ≤ _ ↔ _
      rw [WithBot.coe_le_coe, WithTop.coe_le_coe]
      constructor <;> intro h <;> linarith
  have ml {k : ℕ} [NeZero k] (w : Fin k → WithBot K) : maxCoeff w ≤ (tol : WithBot K) ↔ ∀ i, w i ≤ (tol : WithBot K) := by
    unfold maxCoeff
    rw [Finset.sup'_le_iff]
    simp
  have hc0 : (if 0 < me then infNorm (prob.eq x) else 0) ≤ tol ↔ 0 ≤ tol ∧ ∀ i, |prob.eq x i| ≤ tol := by
    split_ifs with h
    · exact infNorm_le_iff _
    · obtain rfl : me = 0 := by omega
      exact ⟨fun h => ⟨h, fun i => i.elim0⟩, fun h => h.1⟩
  unfold maxConstraintsViolation ViolatedByAtMostInf
  simp only []
  rw [maxLower_le_iff, maxLower_le_iff, ml, ml]
  simp only [el, eu]
  by_cases hm : 0 < mi
  · have : NeZero mi := ⟨hm.ne'⟩
    rw [dif_pos hm, maxLower_le_iff, maxLower_le_iff, ml, ml, hc0]
    simp only [el, eu, forall_and]
    tauto
  · obtain rfl : mi = 0 := by omega
    rw [dif_neg hm, hc0]
    simp only [forall_and]
    have e1 : ∀ i : Fin 0, bd.lbg i ≤ ((prob.ineq x i + tol : K) : WithBot K) := fun i => i.elim0
    have e2 : ∀ i : Fin 0, ((prob.ineq x i - tol : K) : WithTop K) ≤ bd.ubg i := fun i => i.elim0
    tauto

/-- C213. What the status and the counters mean when bounds are infinite: as C23 and C24; absent bounds are not part of the condition. -/
theorem solved_meaning [NeZero n] {pi : PrecondInf prec} {qi : QPSolverInf qps} (hp : pi.Limit) (hq : qi.Limit) {eps : K} {cfg : Settings K}
    {prob : Problem K n me mi} {bd : Bounds K n mi} {sI rI : State K n me mi prec qps}
    (h : solve (defaultEnv eps cfg prob bd pi qi) sI = some rI) :
    (1 ≤ rI.iter ∧ rI.iter ≤ max 1 cfg.maxIter) ∧
    (rI.status = .SOLVED ↔ rI.primalNorm ≤ cfg.epsPrim ∧ rI.dualNorm ≤ cfg.epsDual ∧ 0 ≤ cfg.epsPrim ∧
      ViolatedByAtMostInf cfg.epsPrim (prob.eq rI.x) (prob.ineq rI.x) bd.lbg bd.ubg rI.x bd.lbx bd.ubx) ∧
    (rI.status ≠ .SOLVED → rI.status = .MAX_ITER_EXCEEDED ∧ rI.iter = max 1 cfg.maxIter) := by
  obtain ⟨C, hC⟩ := maxConstraintsViolation_ev prob bd rI.x
  obtain ⟨bd', r, ha, hr, hs⟩ := finite_run hp hq h C
  obtain ⟨c1, c2, c3, c4, -⟩ := Sqp.solve_control_flow hr
  have e : Sqp.maxConstraintsViolation (Sqp.defaultEnv (prec := prec) (qps := qps) eps cfg prob bd').prob
      (Sqp.defaultEnv (prec := prec) (qps := qps) eps cfg prob bd').bd r.x = maxConstraintsViolation prob bd rI.x := by
    rw [hs.x]; exact hC bd' ha
  rw [e, hs.status, hs.primalNorm, hs.dualNorm] at c3
  rw [hs.status, hs.iter] at c4
  rw [hs.iter] at c1 c2
  refine ⟨⟨c1, c2⟩, ?_, c4⟩
  rw [← maxViolation_le_iff]
  exact c3

/-- C213. The point returned by the default solver is within the bounds that are present, if the guess is and the QP solver respects the
bounds of consistent QPs: as C27. -/
theorem in_box_inf [NeZero n] {qps : QPSolver K n (me + mi)} {qi : QPSolverInf qps} (hq : qi.Limit) {eps : K} {cfg : Settings K} (h0 : 0 < cfg.tau)
    (h1 : cfg.tau ≤ 1) {prob : Problem K n me mi} {bd : Bounds K n mi} {sI rI : State K n me mi (Sqp.identityPrecond K n (me + mi)) qps}
    (hqp : ∀ m qp, (∀ i, qp.xlb i ≤ qp.xub i) → ∀ i, qp.xlb i ≤ (qps.solve m qp).2.1 i ∧ (qps.solve m qp).2.1 i ≤ qp.xub i)
    (hx : ∀ i, bd.lbx i ≤ (sI.x i : K) ∧ (sI.x i : K) ≤ bd.ubx i)
    (h : solve (defaultEnv eps cfg prob bd (identityInf K n (me + mi)) qi) sI = some rI) :
    ∀ i, bd.lbx i ≤ (rI.x i : K) ∧ (rI.x i : K) ≤ bd.ubx i := by
  obtain ⟨bd', r, ha, hr, hs⟩ := finite_run (identity_limit _) hq h (∑ i, |sI.x i|)
  have := Sqp.solve_in_box h0 h1 hqp (fun i => ⟨QPInf.lower_le (ha.lbx i) (hx i).1 (le_sum sI.x i), QPInf.le_upper (ha.ubx i) (hx i).2 (le_sum sI.x i)⟩) hr
  rw [hs.x] at this
  exact fun i => ⟨QPInf.le_of_lower (ha.lbx i) (this i).1, QPInf.le_of_upper (ha.ubx i) (this i).2⟩

/-! ## C214: the multipliers of absent bounds -/

/-- `m_x`, `m_lam` and the rest before the first pass, sqp_base.hpp:567-575. -/
def start (st : State K n me mi prec qps) : State K n me mi prec qps := { st with status := .MAX_ITER_EXCEEDED, qpIter := 0, iter := 1 }

/-- The states at the end of the iterations of a run. -/
inductive Visited [NeZero n] (env : Env K n me mi prec qps) (st : State K n me mi prec qps) : State K n me mi prec qps → Prop
  | first {s} : qpStep env (linearise env (start st)) = some s → Visited env st (measure env s)
  | next {v t s} : Visited env st v → updateLinearisation env { v with iter := v.iter + 1 } = some t → qpStep env t = some s →
      Visited env st (measure env (callback env s))

theorem loop_visited [NeZero n] {env : Env K n me mi prec qps} {st : State K n me mi prec qps} (fuel : ℕ) {v r : State K n me mi prec qps}
    (hv : Visited env st v) (h : loop env fuel v = some r) :
    ∃ s, Visited env st s ∧ ∃ c, r = { s with status := c } := by
  induction fuel generalizing v with
  | zero => exact ⟨v, hv, v.status, (Option.some.inj h).symm⟩
  | succ k ih =>
    simp only [loop] at h
    by_cases hi : v.iter < env.cfg.maxIter
    · rw [if_pos hi, Option.bind_eq_some_iff] at h
      obtain ⟨t, h1, h⟩ := h
      rw [Option.bind_eq_some_iff] at h
      obtain ⟨s, h2, h⟩ := h
      have hn := Visited.next hv h1 h2
      by_cases ht : terminated env (measure env (callback env s)) = true
      · rw [if_pos ht] at h
        exact ⟨_, hn, .SOLVED, (Option.some.inj h).symm⟩
      · rw [if_neg ht] at h
        exact ih hn h
    · rw [if_neg hi] at h
      exact ⟨v, hv, v.status, (Option.some.inj h).symm⟩

theorem solve_visited [NeZero n] {env : Env K n me mi prec qps} {st r : State K n me mi prec qps} (h : solve env st = some r) :
    ∃ s, Visited env st s ∧ ∃ c, r = { s with status := c } := by
  unfold solve at h
  rw [Option.bind_eq_some_iff] at h
  obtain ⟨s, h1, h⟩ := h
  have hv := Visited.first (env := env) (st := st) h1
  by_cases ht : terminated env (measure env s) = true
  · simp only [ht, if_true] at h
    exact ⟨_, hv, .SOLVED, (Option.some.inj h).symm⟩
  · simp only [ht] at h
    exact loop_visited _ hv h

/-- What one iteration without preconditioner did: it started from `x0` and `lam0`, solved the QP with the Hessian `H` and made a step of size
`a` in the direction `p`. -/
structure StepFrom (env : Env K n me mi prec qps) (s : State K n me mi prec qps) (x0 : Fin n → K) (lam0 : Dual K n me mi)
    (H : Matrix (Fin n) (Fin n) K) (p : Fin n → K) (a : K) : Prop where
  solved : ∃ mem it, env.qps.solve mem (formQP env.bd x0 H (env.prob.costGrad x0) (env.prob.jac x0) (env.prob.constr x0)) = (s.qpMem, p, s.lamK, it)
  size : ∃ c, a = (env.stepSize (env.prob.costGrad x0) s.lamK x0 p c).1
  x : s.x = fun i => x0 i + a * p i
  lam : s.lam = fun i => lam0 i + a * (s.lamK i - lam0 i)
  primal : s.primalNorm = a * infNorm p

theorem stepFrom_qpStep {qps : QPSolver K n (me + mi)} {env : Env K n me mi (Sqp.identityPrecond K n (me + mi)) qps} (hid : env.prec = identityInf K n (me + mi))
    {q s : State K n me mi (Sqp.identityPrecond K n (me + mi)) qps} {H : Matrix (Fin n) (Fin n) K}
    (hq : q.qp = formQP env.bd q.x H (env.prob.costGrad q.x) (env.prob.jac q.x) (env.prob.constr q.x)) (h : qpStep env q = some s) :
    ∃ p a, StepFrom env s q.x q.lam H p a := by
  unfold qpStep at h
  rw [Option.map_eq_some_iff] at h
  obtain ⟨⟨mem, scaled⟩, h1, h2⟩ := h
  rw [hid] at h1
  obtain rfl : q.qp = scaled := congrArg Prod.snd (Option.some.inj h1)
  have hu : (env.prec.unscale mem q.qp).h = env.prob.costGrad q.x := by
    rw [hid, hq]; rfl
  simp only [hu] at h2
  refine ⟨(env.qps.solve q.qpMem q.qp).2.1, (env.stepSize (env.prob.costGrad q.x) (env.qps.solve q.qpMem q.qp).2.2.1 q.x
    (env.qps.solve q.qpMem q.qp).2.1 q.cost).1, ?_, ?_, ?_, ?_, ?_⟩
  · rw [← hq, ← h2]
    exact ⟨q.qpMem, _, rfl⟩
  · rw [← h2]; exact ⟨q.cost, rfl⟩
  · rw [← h2]; rfl
  · rw [← h2]; rfl
  · rw [← h2]; rfl

theorem callback_fields (env : Env K n me mi prec qps) (s : State K n me mi prec qps) :
    (callback env s).x = s.x ∧ (callback env s).lam = s.lam ∧ (callback env s).lamK = s.lamK ∧ (callback env s).qpMem = s.qpMem ∧
      (callback env s).primalNorm = s.primalNorm := by
  unfold callback
  split_ifs <;> exact ⟨rfl, rfl, rfl, rfl, rfl⟩

/-- Every visited state is the result of such an iteration. -/
theorem visited_stepFrom [NeZero n] {qps : QPSolver K n (me + mi)} {env : Env K n me mi (Sqp.identityPrecond K n (me + mi)) qps}
    (hid : env.prec = identityInf K n (me + mi)) {st s : State K n me mi (Sqp.identityPrecond K n (me + mi)) qps} (h : Visited env st s) :
    ∃ x0 lam0 H p a, StepFrom env s x0 lam0 H p a ∧
      ((x0 = st.x ∧ lam0 = st.lam) ∨ ∃ v, Visited env st v ∧ x0 = v.x ∧ lam0 = v.lam) := by
  cases h with
  | @first s h =>
    obtain ⟨p, a, hs⟩ := stepFrom_qpStep (H := env.regularise (env.prob.lagHess st.x st.lam)) hid rfl h
    exact ⟨st.x, st.lam, _, p, a, ⟨hs.solved, hs.size, hs.x, hs.lam, hs.primal⟩, Or.inl ⟨rfl, rfl⟩⟩
  | @next v t s hv h1 h2 =>
    unfold updateLinearisation at h1
    rw [Option.map_eq_some_iff] at h1
    obtain ⟨H, -, ht⟩ := h1
    have e1 : t.x = v.x := by rw [← ht]
    have e2 : t.lam = v.lam := by rw [← ht]
    have e3 : t.qp = formQP env.bd t.x H (env.prob.costGrad t.x) (env.prob.jac t.x) (env.prob.constr t.x) := by rw [← ht]
    obtain ⟨p, a, hs⟩ := stepFrom_qpStep hid e3 h2
    obtain ⟨c1, c2, c3, c4, c5⟩ := callback_fields env s
    refine ⟨t.x, t.lam, H, p, a, ⟨?_, ?_, ?_, ?_, ?_⟩, Or.inr ⟨v, hv, e1, e2⟩⟩
    · change ∃ mem it, _ = ((callback env s).qpMem, p, (callback env s).lamK, it)
      rw [c3, c4]; exact hs.solved
    · change ∃ c, a = (env.stepSize _ (callback env s).lamK _ _ c).1
      rw [c3]; exact hs.size
    · change (callback env s).x = _
      rw [c1]; exact hs.x
    · change (callback env s).lam = fun i => t.lam i + a * ((callback env s).lamK i - t.lam i)
      rw [c2, c3]; exact hs.lam
    · change (callback env s).primalNorm = _
      rw [c5]; exact hs.primal

/-- Some number is between the bounds of every variable and of every inequality. -/
def Bounds.Ordered (bd : Bounds K n mi) : Prop :=
  (∀ i, ∃ v : K, bd.lbx i ≤ v ∧ v ≤ bd.ubx i) ∧ ∀ i, ∃ v : K, bd.lbg i ≤ v ∧ v ≤ bd.ubg i

theorem map_lower_le {lb : WithBot K} {v : K} (c : K) (h : lb ≤ v) : lb.map (fun l => l + c) ≤ ((v + c : K) : WithBot K) := by
  cases lb with
  | bot => exact bot_le
  | coe l =>
    change ((l + c : K) : WithBot K) ≤ _
    have := WithBot.coe_le_coe.mp h
    exact WithBot.coe_le_coe.mpr (by linarith)

theorem le_map_upper {ub : WithTop K} {v : K} (c : K) (h : (v : K) ≤ ub) : ((v + c : K) : WithTop K) ≤ ub.map (fun l => l + c) := by
  cases ub with
  | top => exact le_top
  | coe l =>
    change _ ≤ ((l + c : K) : WithTop K)
    have := WithTop.coe_le_coe.mp h
    exact WithTop.coe_le_coe.mpr (by linarith)

theorem formQP_consistent {bd : Bounds K n mi} (hb : bd.Ordered) (x : Fin n → K) (H : Matrix (Fin n) (Fin n) K) (h : Fin n → K)
    (A : Matrix (Fin (me + mi)) (Fin n) K) (b : Fin (me + mi) → K) : (formQP bd x H h A b).Consistent := by
  unfold QPInf.Consistent
  rw [Sum.forall, Fin.forall_fin_add]
  simp only [QPInf.lower, QPInf.upper, Sum.elim_inl, Sum.elim_inr, formQP, Fin.addCases_left, Fin.addCases_right]
  refine ⟨⟨fun i => ⟨_, le_refl _, le_refl _⟩, fun i => ?_⟩, fun i => ?_⟩
  · obtain ⟨v, h1, h2⟩ := hb.2 i
    refine ⟨v + -b (Fin.natAdd me i), ?_, ?_⟩
    · simp only [add_comm (-b (Fin.natAdd me i))]; exact map_lower_le _ h1
    · simp only [add_comm (-b (Fin.natAdd me i))]; exact le_map_upper _ h2
  · obtain ⟨v, h1, h2⟩ := hb.1 i
    refine ⟨v + -x i, ?_, ?_⟩
    · simp only [sub_eq_add_neg]; exact map_lower_le _ h1
    · simp only [sub_eq_add_neg]; exact le_map_upper _ h2

/-- The sign of the multipliers: a multiplier is positive only if the upper bound is present and negative only if the lower bound is. -/
def SignOk (bd : Bounds K n mi) (lam : Dual K n me mi) : Prop :=
  (∀ i, (bd.ubx i = ⊤ → lam (Sum.inr i) ≤ 0) ∧ (bd.lbx i = ⊥ → 0 ≤ lam (Sum.inr i))) ∧
    ∀ i : Fin mi, (bd.ubg i = ⊤ → lam (Sum.inl (Fin.natAdd me i)) ≤ 0) ∧ (bd.lbg i = ⊥ → 0 ≤ lam (Sum.inl (Fin.natAdd me i)))

theorem cone_signOk {bd : Bounds K n mi} {x : Fin n → K} {H : Matrix (Fin n) (Fin n) K} {h : Fin n → K}
    {A : Matrix (Fin (me + mi)) (Fin n) K} {b : Fin (me + mi) → K} {z y : Dual K n me mi}
    (hc : QPInf.InNormalCone (formQP bd x H h A b).lower (formQP bd x H h A b).upper z y) : SignOk bd y := by
  refine ⟨fun i => ?_, fun i => ?_⟩
  · obtain ⟨-, h1, h2⟩ := hc (Sum.inr i)
    simp only [QPInf.lower, QPInf.upper, Sum.elim_inr, formQP] at h1 h2
    refine ⟨fun e => ?_, fun e => ?_⟩
    · by_contra hn
      have := h1 (not_le.mp hn)
      rw [e] at this
      exact WithTop.top_ne_coe this
    · by_contra hn
      have := h2 (not_le.mp hn)
      rw [e] at this
      exact WithBot.bot_ne_coe this
  · obtain ⟨-, h1, h2⟩ := hc (Sum.inl (Fin.natAdd me i))
    simp only [QPInf.lower, QPInf.upper, Sum.elim_inl, formQP, Fin.addCases_right] at h1 h2
    refine ⟨fun e => ?_, fun e => ?_⟩
    · by_contra hn
      have := h1 (not_le.mp hn)
      rw [e] at this
      exact WithTop.top_ne_coe this
    · by_contra hn
      have := h2 (not_le.mp hn)
      rw [e] at this
      exact WithBot.bot_ne_coe this

theorem signOk_step {bd : Bounds K n mi} {lam lamK : Dual K n me mi} {a : K} (h0 : 0 ≤ a) (h1 : a ≤ 1) (hl : SignOk bd lam) (hk : SignOk bd lamK) :
    SignOk bd fun i => lam i + a * (lamK i - lam i) := by
  have e (i) : lam i + a * (lamK i - lam i) = (1 - a) * lam i + a * lamK i := by ring
  have dn (i) (u : lam i ≤ 0) (v : lamK i ≤ 0) : lam i + a * (lamK i - lam i) ≤ 0 := by
    rw [e]; nlinarith
  have up (i) (u : 0 ≤ lam i) (v : 0 ≤ lamK i) : 0 ≤ lam i + a * (lamK i - lam i) := by
    rw [e]; have := sub_nonneg.mpr h1; positivity
  exact ⟨fun i => ⟨fun e => dn _ ((hl.1 i).1 e) ((hk.1 i).1 e), fun e => up _ ((hl.1 i).2 e) ((hk.1 i).2 e)⟩,
    fun i => ⟨fun e => dn _ ((hl.2 i).1 e) ((hk.2 i).1 e), fun e => up _ ((hl.2 i).2 e) ((hk.2 i).2 e)⟩⟩

/-- The step size of the line search with infinite bounds is positive and at most one. -/
theorem lineSearch_range {eps : K} {cfg : Settings K} (h0 : 0 < cfg.tau) (h1 : cfg.tau ≤ 1) (prob : Problem K n me mi) (bd : Bounds K n mi)
    (h : Fin n → K) (l : Dual K n me mi) (x p : Fin n → K) (c : K) :
    0 < (lineSearch eps cfg prob bd h l x p c).1 ∧ (lineSearch eps cfg prob bd h l x p c).1 ≤ 1 := by
  obtain ⟨B, hB⟩ := lineSearch_ev eps cfg prob bd h l x p c
  rw [← hB _ (bd.cut_approx B)]
  exact Sqp.lineSearch_range h0 h1 prob _ h l x p c

section box
variable {both : Bool} {lin : BoxAdmm.KktMat ℝ n (me + mi) → (BoxAdmm.KktIdx n (me + mi) → ℝ) → (BoxAdmm.KktIdx n (me + mi) → ℝ)} {sq : ℝ → ℝ}
  {qcfg : QPBase.Settings ℝ} {eps : ℝ} {cfg : Settings ℝ} {prob : Problem ℝ n me mi} {bd : Bounds ℝ n mi}

/-- The reported residuals of the last call of the QP solver. -/
noncomputable def qpResPrim (s : State ℝ n me mi (Sqp.identityPrecond ℝ n (me + mi)) (SqpSparse.boxQps both lin sq qcfg)) : ℝ :=
  (BoxAdmm.State.info s.qpMem).resPrim
/-- See `qpResPrim`. -/
noncomputable def qpResDual (s : State ℝ n me mi (Sqp.identityPrecond ℝ n (me + mi)) (SqpSparse.boxQps both lin sq qcfg)) : ℝ :=
  (BoxAdmm.State.info s.qpMem).resDual

/-- What the residuals of the QP solver say about a step. -/
theorem stepFrom_residuals (hq : Sqp.FineSettings qcfg) (hb : bd.Ordered)
    {s : State ℝ n me mi (Sqp.identityPrecond ℝ n (me + mi)) (SqpSparse.boxQps both lin sq qcfg)} {x0 : Fin n → ℝ} {lam0 : Dual ℝ n me mi}
    {H : Matrix (Fin n) (Fin n) ℝ} {p : Fin n → ℝ} {a : ℝ} (h : StepFrom (boxEnv both lin sq qcfg eps cfg prob bd) s x0 lam0 H p a) :
    ∃ qp, qp = formQP bd x0 H (prob.costGrad x0) (prob.jac x0) (prob.constr x0) ∧
      ∃ z, QPInf.InNormalCone qp.lower qp.upper z s.lamK ∧ infNorm (qp.rows p - z) ≤ qpResPrim s ∧ infNorm (qp.lagrangianGradient p s.lamK) = qpResDual s := by
  refine ⟨_, rfl, ?_⟩
  obtain ⟨qp, hqp⟩ : ∃ qp, qp = formQP bd x0 H (prob.costGrad x0) (prob.jac x0) (prob.constr x0) := ⟨_, rfl⟩
  rw [← hqp]
  obtain ⟨⟨mem, it, h1⟩, -⟩ := h
  change (boxQpsInf both lin sq qcfg).solve mem (formQP bd x0 H (prob.costGrad x0) (prob.jac x0) (prob.constr x0)) = _ at h1
  rw [← hqp] at h1
  obtain ⟨B, hB⟩ := BoxAdmmInf.solve_as_finite both lin sq qcfg qp 0 0 mem
  obtain ⟨t, ht⟩ := BoxAdmm.solve_total (both := both) (lin := lin) (sq := sq) (qp := qp.cut B) hq.interval 0 0 mem
  rw [hB _ (qp.cut_approx B)] at ht
  simp only [boxQpsInf] at h1
  rw [ht] at h1
  have e1 : t = s.qpMem := congrArg Prod.fst h1
  have e2 : t.x = p := congrArg (fun r => r.2.1) h1
  have e3 : t.y = s.lamK := congrArg (fun r => r.2.2.1) h1
  obtain ⟨r1, r2, r3⟩ := BoxAdmmInf.reported_residuals_inf hq.checked (by rw [hqp]; exact formQP_consistent hb _ _ _ _ _) hq.rho ht
  refine ⟨t.aux, by rw [← e3]; exact r3, ?_, ?_⟩
  · rw [← e2]
    refine r1.trans ?_
    rw [e1]; rfl
  · rw [← e2, ← e3, ← r2, e1]; rfl

/-- C214. With the default QP solver, a multiplier returned by `solve` is positive only if the corresponding upper bound is present and
negative only if the lower bound is, provided this holds for the guess. In particular the multiplier of a variable or an inequality without
bounds stays zero. -/
theorem absent_bound_multiplier [NeZero n] (hq : Sqp.FineSettings qcfg) (hb : bd.Ordered) (h0 : 0 < cfg.tau) (h1 : cfg.tau ≤ 1)
    {st r : State ℝ n me mi (Sqp.identityPrecond ℝ n (me + mi)) (SqpSparse.boxQps both lin sq qcfg)}
    (h : solve (boxEnv both lin sq qcfg eps cfg prob bd) st = some r) : SignOk bd r.lamK ∧ (SignOk bd st.lam → SignOk bd r.lam) := by
  obtain ⟨s, hv, c, rfl⟩ := solve_visited h
  have key {s : State ℝ n me mi (Sqp.identityPrecond ℝ n (me + mi)) (SqpSparse.boxQps both lin sq qcfg)} {x0 lam0 H p a}
      (hs : StepFrom (boxEnv both lin sq qcfg eps cfg prob bd) s x0 lam0 H p a) :
      SignOk bd s.lamK ∧ (SignOk bd lam0 → SignOk bd s.lam) := by
    obtain ⟨qp, rfl, z, hz, -⟩ := stepFrom_residuals hq hb hs
    have hk := cone_signOk hz
    refine ⟨hk, fun hl => ?_⟩
    obtain ⟨c, hc⟩ := hs.size
    obtain ⟨a0, a1⟩ := lineSearch_range (eps := eps) h0 h1 prob bd (prob.costGrad x0) s.lamK x0 p c
    rw [hs.lam]
    exact signOk_step (by rw [hc]; exact a0.le) (by rw [hc]; exact a1) hl hk
  refine ⟨?_, fun hl => ?_⟩
  · obtain ⟨x0, lam0, H, p, a, hs, -⟩ := visited_stepFrom rfl hv
    exact (key hs).1
  · change SignOk bd s.lam
    clear h c
    induction hv with
    | @first s hf =>
      obtain ⟨p, a, hs⟩ := stepFrom_qpStep (env := boxEnv both lin sq qcfg eps cfg prob bd) (H := prob.lagHess st.x st.lam) rfl rfl hf
      exact (key hs).2 hl
    | @next v t s hv g1 g2 ih =>
      unfold updateLinearisation at g1
      rw [Option.map_eq_some_iff] at g1
      obtain ⟨H, -, ht⟩ := g1
      have e2 : t.lam = v.lam := by rw [← ht]
      have e3 : t.qp = formQP bd t.x H (prob.costGrad t.x) (prob.jac t.x) (prob.constr t.x) := by rw [← ht]; rfl
      obtain ⟨p, a, hs⟩ := stepFrom_qpStep (env := boxEnv both lin sq qcfg eps cfg prob bd) rfl e3 g2
      change SignOk bd (callback _ s).lam
      rw [(callback_fields _ s).2.1]
      exact (key hs).2 (by rw [e2]; exact ih)

/-- C214. What SOLVED means for the default QP solver when bounds are infinite: as C193. The last step `p` from `x0` meets the linearised
constraints up to the reported primal residual, the multipliers are complementary to the bounds that are present and zero for the others,
and the gradient of the Lagrangian at `x0` is bounded by the tolerance and the reported dual residual. -/
theorem certificate_inf [NeZero n] (hq : Sqp.FineSettings qcfg) (hb : bd.Ordered) (h0 : 0 < cfg.tau) (h1 : cfg.tau ≤ 1)
    {st r : State ℝ n me mi (Sqp.identityPrecond ℝ n (me + mi)) (SqpSparse.boxQps both lin sq qcfg)}
    (h : solve (boxEnv both lin sq qcfg eps cfg prob bd) st = some r) (hs : r.status = .SOLVED) :
    ∃ (x0 : Fin n → ℝ) (lam0 : Dual ℝ n me mi) (H : Matrix (Fin n) (Fin n) ℝ) (p : Fin n → ℝ) (α : ℝ),
      ((x0 = st.x ∧ lam0 = st.lam) ∨ ∃ v, Visited (boxEnv both lin sq qcfg eps cfg prob bd) st v ∧ x0 = v.x ∧ lam0 = v.lam) ∧
      0 < α ∧ α ≤ 1 ∧ r.x = (fun i => x0 i + α * p i) ∧ r.lam = (fun i => lam0 i + α * (r.lamK i - lam0 i)) ∧
      (∀ i, α * |(prob.costGrad x0 + (prob.jac x0)ᵀ *ᵥ QP.yA r.lamK + QP.yBox r.lamK) i| ≤
        (∑ j, |H i j|) * cfg.epsPrim + α * qpResDual r) ∧
      ∀ qp, qp = formQP bd x0 H (prob.costGrad x0) (prob.jac x0) (prob.constr x0) → ∀ i,
        (qp.lower i ≤ ((qp.rows p i + qpResPrim r : ℝ) : WithBot ℝ) ∧ ((qp.rows p i - qpResPrim r : ℝ) : WithTop ℝ) ≤ qp.upper i) ∧
        (0 < r.lamK i → ∃ u : ℝ, qp.upper i = u ∧ u - qpResPrim r ≤ qp.rows p i) ∧
        (r.lamK i < 0 → ∃ l : ℝ, qp.lower i = l ∧ qp.rows p i ≤ l + qpResPrim r) := by
  have n1 := ((solved_meaning (identity_limit _) (boxQps_limit both lin sq qcfg) h).2.1.mp hs).1
  obtain ⟨s, hv, c, rfl⟩ := solve_visited h
  obtain ⟨x0, lam0, H, p, a, hst, hfrom⟩ := visited_stepFrom rfl hv
  obtain ⟨c', hc⟩ := hst.size
  obtain ⟨a0, a1⟩ := lineSearch_range (eps := eps) h0 h1 prob bd (prob.costGrad x0) s.lamK x0 p c'
  have a0' : 0 < a := by rw [hc]; exact a0
  have a1' : a ≤ 1 := by rw [hc]; exact a1
  obtain ⟨qp, hqp, z, hz, hp, hd⟩ := stepFrom_residuals hq hb hst
  refine ⟨x0, lam0, H, p, a, hfrom, a0', a1', hst.x, hst.lam, fun i => ?_, fun qp' hqp' i => ?_⟩
  · have hi : |qp.lagrangianGradient p s.lamK i| ≤ qpResDual s := by rw [← hd]; exact le_infNorm _ i
    have hg : (prob.costGrad x0 + (prob.jac x0)ᵀ *ᵥ QP.yA s.lamK + QP.yBox s.lamK) i = qp.lagrangianGradient p s.lamK i - (H *ᵥ p) i := by
      rw [hqp]
      simp only [QPInf.lagrangianGradient, formQP, Pi.add_apply]
      ring
    have hbd : |(H *ᵥ p) i| ≤ (∑ j, |H i j|) * infNorm p := by
      rw [Finset.sum_mul]
      change |∑ j, H i j * p j| ≤ _
      refine (Finset.abs_sum_le_sum_abs _ _).trans (Finset.sum_le_sum fun j _ => ?_)
      rw [abs_mul]
      exact mul_le_mul_of_nonneg_left (le_infNorm p j) (abs_nonneg _)
    change a * |(prob.costGrad x0 + (prob.jac x0)ᵀ *ᵥ QP.yA s.lamK + QP.yBox s.lamK) i| ≤ _ + a * qpResDual s
    rw [hg]
    have h4 := abs_sub (qp.lagrangianGradient p s.lamK i) ((H *ᵥ p) i)
    have h5 : a * |qp.lagrangianGradient p s.lamK i - (H *ᵥ p) i| ≤ a * ((∑ j, |H i j|) * infNorm p + qpResDual s) :=
      mul_le_mul_of_nonneg_left (by linarith) a0'.le
    have h6 : a * infNorm p ≤ cfg.epsPrim := by rw [← hst.primal]; exact n1
    have h7 := mul_le_mul_of_nonneg_left h6 (Finset.sum_nonneg fun j _ => abs_nonneg _ : 0 ≤ ∑ j, |H i j|)
    linarith
  · rw [← hqp] at hqp'
    subst hqp'
    have h3 := abs_le.mp ((le_infNorm _ i).trans hp)
    rw [Pi.sub_apply] at h3
    obtain ⟨⟨b1, b2⟩, b3, b4⟩ := hz i
    change (_ ≤ ((qp'.rows p i + qpResPrim s : ℝ) : WithBot ℝ) ∧ ((qp'.rows p i - qpResPrim s : ℝ) : WithTop ℝ) ≤ _) ∧ _
    refine ⟨⟨b1.trans (WithBot.coe_le_coe.mpr (by linarith [h3.1])), le_trans (WithTop.coe_le_coe.mpr (by linarith [h3.2])) b2⟩,
      fun hy => ⟨z i, b3 hy, ?_⟩, fun hy => ⟨z i, b4 hy, ?_⟩⟩
    · change z i - qpResPrim s ≤ _
      linarith [h3.1]
    · change _ ≤ z i + qpResPrim s
      linarith [h3.2]

end box

/-! ## Examples -/

/-- `½(x - 5)²` without constraints. -/
def demoProb (K : Type*) [Field K] : Problem K 1 0 0 where
  cost x := (x 0 - 5) ^ 2 / 2
  eq _ := Fin.elim0
  ineq _ := Fin.elim0
  costGrad x := fun _ => x 0 - 5
  constr _ := Fin.elim0
  jac _ := Matrix.of fun i => Fin.elim0 i
  lagGrad x l := fun _ => x 0 - 5 + l (Sum.inr 0)
  lagHess _ _ := Matrix.of fun _ _ => 1

/-- `x ≤ 3`; no lower bound. -/
def demoBd (K : Type*) [Field K] : Bounds K 1 0 := { lbx := fun _ => ⊥, ubx := fun _ => ((3 : K) : WithTop K), lbg := Fin.elim0, ubg := Fin.elim0 }

/-- A QP solver for the Hessian `1`: the clipped gradient step and its multiplier. -/
def clipQps : QPSolver ℚ 1 (0 + 0) where
  Mem := PUnit
  solve _ qp :=
    let p := fun i => min (max (-qp.h i) (qp.xlb i)) (qp.xub i)
    (PUnit.unit, p, Sum.elim (fun i => Fin.elim0 i) (fun i => -(qp.h i + p i)), 1)

/-- The same with infinite bounds. -/
def clipInf : QPSolverInf clipQps where
  solve _ qp :=
    let p := fun i => minUpper (maxLower (-qp.h i) (qp.xlb i)) (qp.xub i)
    (PUnit.unit, p, Sum.elim (fun i => Fin.elim0 i) (fun i => -(qp.h i + p i)), 1)

theorem clip_limit : clipInf.Limit := by
  intro mem qp
  refine ⟨∑ i, |qp.h i| + qp.size, fun qp' ha => ?_⟩
  have e (i) : min (max (-qp.h i) (qp'.xlb i)) (qp'.xub i) = minUpper (maxLower (-qp.h i) (qp.xlb i)) (qp.xub i) := by
    refine (clip_approx (ha.lo (Sum.inr i)) (ha.up (Sum.inr i)) ?_).symm
    have h1 := qp.le_size (Sum.inr i)
    have h2 := absUpper_nonneg (qp.upper (Sum.inr i))
    rw [abs_neg]
    linarith [le_sum qp.h i]
  simp only [clipQps, clipInf, ha.h, e]

/-- The state of the example. -/
def demoSt : State ℚ 1 0 0 (Sqp.identityPrecond ℚ 1 (0 + 0)) clipQps where
  x := fun _ => 0
  lam := fun _ => 0
  lamK := fun _ => 0
  qp := ⟨0, 0, 0, fun _ => ⊥, fun _ => ⊤, fun _ => ⊥, fun _ => ⊤⟩
  cost := 0
  iter := 0
  qpIter := 0
  status := .INVALID_SETTINGS
  lagGradient := 0
  stepPrev := 0
  primalNorm := 0
  dualNorm := 0
  maxViolation := 0
  precMem := PUnit.unit
  qpMem := PUnit.unit
  callbacks := []

/-- C213 is not vacuous: the run of the example returns the solution `3` with multiplier `2` after two iterations. -/
example : (solve (defaultEnv (1 / 10 ^ 15) Settings.default (demoProb ℚ) (demoBd ℚ) (identityInf ℚ 1 (0 + 0)) clipInf) demoSt).map
    (fun r => (r.status, r.iter, r.x 0, r.lam (Sum.inr 0))) = some (.SOLVED, 2, 3, 2) := by decide +kernel

/-- Without bounds the solution is `5` with multiplier `0`. -/
example : (solve (defaultEnv (1 / 10 ^ 15) Settings.default (demoProb ℚ) Bounds.none (identityInf ℚ 1 (0 + 0)) clipInf) demoSt).map
    (fun r => (r.status, r.iter, r.x 0, r.lam (Sum.inr 0))) = some (.SOLVED, 2, 5, 0) := by decide +kernel

/-- The clipped step respects the bounds of consistent QPs, as `in_box_inf` asks. -/
example : ∀ m qp, (∀ i, qp.xlb i ≤ qp.xub i) → ∀ i, qp.xlb i ≤ (clipQps.solve m qp).2.1 i ∧ (clipQps.solve m qp).2.1 i ≤ qp.xub i :=
  fun _ _ hc i => ⟨le_min (le_max_right _ _) (hc i), min_le_right _ _⟩

/-- The hypotheses of C214 hold for a problem with an upper bound only, for any decomposition, and some run reports SOLVED. -/
example (both : Bool) (lin : BoxAdmm.KktMat ℝ 1 (0 + 0) → (BoxAdmm.KktIdx 1 (0 + 0) → ℝ) → (BoxAdmm.KktIdx 1 (0 + 0) → ℝ)) (sq : ℝ → ℝ)
    (st : State ℝ 1 0 0 (Sqp.identityPrecond ℝ 1 (0 + 0)) (SqpSparse.boxQps both lin sq Sqp.qpSettings)) (hl : st.lam = 0) :
    Sqp.FineSettings Sqp.qpSettings ∧ (demoBd ℝ).Ordered ∧ SignOk (demoBd ℝ) st.lam ∧
    ∃ cfg : Settings ℝ, cfg.validate = true ∧ ∃ r, solve (boxEnv both lin sq Sqp.qpSettings (1 / 10 ^ 15) cfg (demoProb ℝ) (demoBd ℝ)) st = some r ∧
      r.status = .SOLVED := by
  refine ⟨Sqp.qpSettings_fine, ⟨fun i => ⟨0, bot_le, WithTop.coe_le_coe.mpr (by norm_num)⟩, fun i => i.elim0⟩, ?_, ?_⟩
  · rw [hl]
    exact ⟨fun i => ⟨fun _ => le_refl _, fun _ => le_refl _⟩, fun i => i.elim0⟩
  · obtain ⟨E, hE⟩ : ∃ E : ℝ → ℝ → Env ℝ 1 0 0 (Sqp.identityPrecond ℝ 1 (0 + 0)) (SqpSparse.boxQps both lin sq Sqp.qpSettings), E = fun e e' =>
        boxEnv both lin sq Sqp.qpSettings (1 / 10 ^ 15) { (Settings.default : Settings ℝ) with epsPrim := e, epsDual := e' } (demoProb ℝ) (demoBd ℝ) := ⟨_, rfl⟩
    obtain ⟨s, hs⟩ : ∃ s, qpStep (E 1 1) (linearise (E 1 1) (start st)) = some s := by
      rw [hE]
      exact ⟨_, rfl⟩
    have hany (e e' : ℝ) : qpStep (E e e') (linearise (E e e') (start st)) = some s := by
      rw [← hs, hE]; rfl
    obtain ⟨e, he⟩ : ∃ e, e = max 1 (max s.primalNorm (measure (E 1 1) s).maxViolation) := ⟨_, rfl⟩
    obtain ⟨e', he'⟩ : ∃ e', e' = max 1 s.dualNorm := ⟨_, rfl⟩
    have p1 : 0 < e := lt_of_lt_of_le one_pos (by rw [he]; exact le_max_left _ _)
    have p2 : 0 < e' := lt_of_lt_of_le one_pos (by rw [he']; exact le_max_left _ _)
    have t : terminated (E e e') (measure (E e e') s) = true := by
      simp only [terminated, Bool.and_eq_true, decide_eq_true_eq]
      have c1 : (E e e').cfg.epsPrim = e := by rw [hE]; rfl
      have c2 : (E e e').cfg.epsDual = e' := by rw [hE]; rfl
      have c3 : (measure (E e e') s).maxViolation = (measure (E 1 1) s).maxViolation := by rw [hE]; rfl
      rw [c1, c2, c3]
      refine ⟨⟨?_, ?_⟩, ?_⟩
      · change s.primalNorm ≤ e
        rw [he]; exact (le_max_left _ _).trans (le_max_right _ _)
      · change s.dualNorm ≤ e'
        rw [he']; exact le_max_right _ _
      · rw [he]; exact (le_max_right _ _).trans (le_max_right _ _)
    refine ⟨{ (Settings.default : Settings ℝ) with epsPrim := e, epsDual := e' }, ?_, { measure (E e e') s with status := .SOLVED }, ?_, rfl⟩
    · simp only [Settings.validate, Settings.default, Bool.and_eq_true, decide_eq_true_eq]
      refine ⟨⟨⟨⟨⟨⟨⟨⟨⟨?_, ?_⟩, ?_⟩, ?_⟩, ?_⟩, ?_⟩, p1⟩, p2⟩, ?_⟩, ?_⟩ <;> norm_num
    · have hr : solve (E e e') st = some { measure (E e e') s with status := .SOLVED } := by
        unfold solve
        change (qpStep (E e e') (linearise (E e e') (start st))).bind _ = _
        rw [hany]
        simp only [Option.bind_some]
        rw [if_pos t]
      rw [hE] at hr
      rw [hE]
      exact hr

end PolyMPC.SqpInf
