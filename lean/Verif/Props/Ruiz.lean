import Verif.Model.Ruiz
import Mathlib.Tactic.FieldSimp
import Mathlib.Tactic.Linarith
import Mathlib.Tactic.LinearCombination
import Mathlib.Algebra.BigOperators.Field
import Mathlib.Algebra.Order.BigOperators.Ring.Finset
import Mathlib.Algebra.Order.GroupWithZero.Lex
import Mathlib.Data.Rat.Sqrt
import Mathlib.Analysis.SpecialFunctions.Pow.Real

/-!
# Properties C14-C16, C64, C65: Ruiz equilibration
-/

set_option linter.unusedSectionVars false

namespace PolyMPC.Ruiz
open Matrix PolyMPC.Spec

variable {K : Type*} [Field K] [LinearOrder K] [IsStrictOrderedRing K] {N M : ℕ}

/-- All scaling factors are positive. -/
structure Positive (P : State K N M) : Prop where
  D : ∀ i, 0 < P.D i
  E : ∀ i, 0 < P.E i
  c : 0 < P.c

theorem positive_init : Positive (init : State K N M) :=
  ⟨fun _ => one_pos, fun _ => one_pos, one_pos⟩

theorem guardZero_pos {n : ℕ} {eps : K} (heps : 0 < eps) (v : Fin n → K) (k : Fin n) : 0 < guardZero eps v k := by
  unfold guardZero
  split_ifs with h
  · exact one_pos
  · exact lt_of_lt_of_le heps (not_lt.mp h)

theorem invSqrt_pos {n : ℕ} {sq : K → K} (hsq : IsSqrt sq) {v : Fin n → K} (hv : ∀ k, 0 < v k) (k : Fin n) :
    0 < invSqrt sq v k := inv_pos.mpr (hsq.pos (hv k))

theorem scaleMatrices_one (qp : QP K N M) : scaleMatrices 1 (fun _ => 1) (fun _ => 1) qp = qp := by
  simp only [scaleMatrices, one_mul, mul_one]
  rfl

/-- The cost factor of a sweep is not negative: the norm of `h` used for it is not negative. -/
def HNormNonneg (var : Variant K N M) : Prop := ∀ x, 0 ≤ x → 0 ≤ var.hNorm x

theorem denseVariant_hNorm {eps : K} (heps : 0 < eps) : ∀ x, 0 ≤ x → 0 < (denseVariant eps : Variant K N M).hNorm x := by
  intro x _
  simp only [denseVariant]
  split_ifs with h
  · exact heps.trans h
  · exact one_pos

section loops
variable [NeZero N] [NeZero M]

/-- Effect of one sweep. -/
theorem sweep_spec {var : Variant K N M} (hz : 0 < var.approxZero) (hh : HNormNonneg var) {sq : K → K} (hsq : IsSqrt sq)
    {withC : Bool} {P P' : State K N M} {qp qp' : QP K N M} {norm : K}
    (h : sweep var sq withC P qp = some (P', qp', norm)) :
    ∃ (mD : Fin N → K) (mE : Fin M → K) (g : K), (∀ i, 0 < mD i) ∧ (∀ i, 0 < mE i) ∧ 0 < g ∧
      P'.D = (fun i => P.D i * mD i) ∧ P'.E = (fun i => P.E i * mE i) ∧ P'.c = P.c * g ∧
      qp' = scaleCost g (scaleMatrices (if withC then P.c else 1) mD mE qp) := by
  unfold sweep at h
  simp only at h
  rw [Option.ite_none_left_eq_some] at h
  obtain ⟨hne, h⟩ := h
  simp only [Option.some.injEq, Prod.mk.injEq] at h
  obtain ⟨rfl, rfl, -⟩ := h
  refine ⟨_, _, _, invSqrt_pos hsq (guardZero_pos hz _), invSqrt_pos hsq (guardZero_pos hz _), ?_, rfl, rfl, rfl, rfl⟩
  rw [one_div, inv_pos]
  refine lt_of_le_of_ne ?_ (Ne.symm hne)
  exact le_max_of_le_right (hh _ (infNorm_nonneg _))

/-- Effect of the loop: the accumulated factors, and the factor by which the cost was multiplied in addition to the
recorded one: the product of the `m_c` recorded before each sweep (`withC`). -/
theorem loop_spec {var : Variant K N M} (hz : 0 < var.approxZero) (hh : HNormNonneg var) {sq : K → K} (hsq : IsSqrt sq)
    {withC : Bool} {continues : K → Bool} (fuel : ℕ) {P P' : State K N M} {qp qp' : QP K N M} {norm : K}
    (h : loop var sq withC continues fuel P qp norm = some (P', qp')) :
    ∃ (mD : Fin N → K) (mE : Fin M → K) (g : K) (cs : List K), (∀ i, 0 < mD i) ∧ (∀ i, 0 < mE i) ∧ 0 < g ∧
      P'.D = (fun i => P.D i * mD i) ∧ P'.E = (fun i => P.E i * mE i) ∧ P'.c = P.c * g ∧
      cs.length ≤ fuel ∧ (withC = false → ∀ c ∈ cs, c = 1) ∧ (withC = true → cs = [] ∨ cs.head? = some P.c) ∧
      qp' = scaleMatrices (cs.prod * g) mD mE qp := by
  induction fuel generalizing P qp norm with
  | zero =>
    simp only [loop, Option.some.injEq, Prod.mk.injEq] at h
    obtain ⟨rfl, rfl⟩ := h
    refine ⟨fun _ => 1, fun _ => 1, 1, [], fun _ => one_pos, fun _ => one_pos, one_pos, by simp, by simp, by simp,
      le_rfl, by simp, fun _ => Or.inl rfl, ?_⟩
    simp [scaleMatrices_one]
  | succ fuel ih =>
    unfold loop at h
    by_cases hc : continues norm
    · rw [if_pos hc] at h
      cases hs : sweep var sq withC P qp with
      | none => rw [hs] at h; cases h
      | some r =>
        obtain ⟨P1, qp1, norm1⟩ := r
        rw [hs] at h
        simp only at h
        obtain ⟨mD, mE, g, h1, h2, h3, h4, h5, h6, h7⟩ := sweep_spec hz hh hsq hs
        obtain ⟨mD', mE', g', cs, k1, k2, k3, k4, k5, k6, k7, k8, -, k9⟩ := ih h
        refine ⟨fun i => mD i * mD' i, fun i => mE i * mE' i, g * g', (if withC then P.c else 1) :: cs,
          fun i => mul_pos (h1 i) (k1 i), fun i => mul_pos (h2 i) (k2 i), mul_pos h3 k3, ?_, ?_, ?_, ?_, ?_, ?_, ?_⟩
        · rw [k4, h4]; funext i; ring
        · rw [k5, h5]; funext i; ring
        · rw [k6, h6]; ring
        · simpa using k7
        · intro hw c hcm
          rw [List.mem_cons] at hcm
          rcases hcm with rfl | hcm
          · simp [hw]
          · exact k8 hw c hcm
        · intro hw; right; simp [hw]
        · rw [k9, h7]
          simp only [scaleMatrices, scaleCost, List.prod_cons, QP.mk.injEq, Matrix.of_apply, and_true]
          refine ⟨?_, ?_, ?_⟩
          · ext i j; simp only [Matrix.of_apply]; ring
          · funext i; ring
          · ext i j; simp only [Matrix.of_apply]; ring
    · rw [if_neg hc] at h
      simp only [Option.some.injEq, Prod.mk.injEq] at h
      obtain ⟨rfl, rfl⟩ := h
      refine ⟨fun _ => 1, fun _ => 1, 1, [], fun _ => one_pos, fun _ => one_pos, one_pos, by simp, by simp, by simp,
        Nat.zero_le _, by simp, fun _ => Or.inl rfl, ?_⟩
      simp [scaleMatrices_one]

/-- The result of `compute` is what `scale` produces with the recorded factors, and these are positive. -/
theorem compute_eq_scale {var : Variant K N M} (hz : 0 < var.approxZero) (hh : HNormNonneg var) {sq : K → K}
    (hsq : IsSqrt sq) {P P' : State K N M} {qp qp' : QP K N M} (h : compute var sq P qp = some (P', qp')) :
    Positive P' ∧ qp' = scale P' qp := by
  unfold compute at h
  rw [Option.map_eq_some_iff] at h
  obtain ⟨⟨P1, qp1⟩, h1, h2⟩ := h
  simp only [Prod.mk.injEq] at h2
  obtain ⟨rfl, rfl⟩ := h2
  obtain ⟨mD, mE, g, cs, k1, k2, k3, k4, k5, k6, -, k8, -, k9⟩ := loop_spec hz hh hsq 4 h1
  have hcs : cs.prod = 1 := List.prod_eq_one (k8 rfl)
  simp only [init, one_mul] at k4 k5 k6
  rw [hcs, one_mul] at k9
  refine ⟨⟨fun i => by rw [k4]; exact k1 i, fun i => by rw [k5]; exact k2 i, by rw [k6]; exact k3⟩, ?_⟩
  rw [k9, scale, k4, k5, k6]

end loops

/-! ## C14 -/

/-- `unscale` after `scale` with positive factors restores the QP. -/
theorem unscale_scale {P : State K N M} (hP : Positive P) (qp : QP K N M) : unscale P (scale P qp) = qp := by
  have hD := fun i => (hP.D i).ne'
  have hE := fun i => (hP.E i).ne'
  have hc := hP.c.ne'
  obtain ⟨H, h, A, al, au, l, u⟩ := qp
  simp only [unscale, scale, scaleBounds, scaleMatrices, QP.mk.injEq, Matrix.of_apply]
  refine ⟨?_, ?_, ?_, ?_, ?_, ?_, ?_⟩
  · ext i j; simp only [Matrix.of_apply]; have := hD i; have := hD j; field_simp
  · funext i; have := hD i; field_simp
  · ext i j; simp only [Matrix.of_apply]; have := hE i; have := hD j; field_simp
  all_goals funext i; have := hD
  · have := hE i; field_simp
  · have := hE i; field_simp
  · have := hD i; field_simp
  · have := hD i; field_simp

/-- C14, first half, dense and sparse: `compute` followed by `unscale` restores the QP data. -/
theorem unscale_compute [NeZero N] [NeZero M] {var : Variant K N M} (hz : 0 < var.approxZero) (hh : HNormNonneg var)
    {sq : K → K} (hsq : IsSqrt sq) {P P' : State K N M} {qp qp' : QP K N M}
    (h : compute var sq P qp = some (P', qp')) : unscale P' qp' = qp := by
  obtain ⟨h1, rfl⟩ := compute_eq_scale hz hh hsq h
  exact unscale_scale h1 qp

/-- C14: `compute` on dense data always succeeds, and `unscale` then restores all data, whatever the state of the
preconditioner was. -/
theorem dense_compute_restores [NeZero N] [NeZero M] {eps : K} (heps : 0 < eps) {sq : K → K} (hsq : IsSqrt sq)
    (P : State K N M) (qp : QP K N M) :
    ∃ P' qp', compute (denseVariant eps) sq P qp = some (P', qp') ∧ Positive P' ∧ unscale P' qp' = qp := by
  have hh : HNormNonneg (denseVariant eps : Variant K N M) := fun x hx => (denseVariant_hNorm heps x hx).le
  have hsome : ∀ fuel P qp norm, ∃ r, loop (denseVariant eps : Variant K N M) sq false
      (fun norm => decide (1 - norm ≥ tolerance)) fuel P qp norm = some r := by
    intro fuel
    induction fuel with
    | zero => exact fun P qp norm => ⟨_, rfl⟩
    | succ fuel ih =>
      intro P qp norm
      unfold loop
      by_cases hc : decide (1 - norm ≥ (tolerance : K)) = true
      · rw [if_pos hc]
        have : ∃ r, sweep (denseVariant eps : Variant K N M) sq false P qp = some r := by
          unfold sweep
          simp only
          rw [if_neg]
          · exact ⟨_, rfl⟩
          · exact (lt_max_of_lt_right (denseVariant_hNorm heps _ (infNorm_nonneg _))).ne'
        obtain ⟨⟨P1, qp1, n1⟩, hr⟩ := this
        rw [hr]
        exact ih P1 qp1 n1
      · rw [if_neg hc]; exact ⟨_, rfl⟩
  obtain ⟨⟨P1, qp1⟩, hr⟩ := hsome 4 init qp (10 * tolerance)
  have hcomp : compute (denseVariant eps) sq P qp = some (P1, scaleBounds P1 qp1) := by
    unfold compute; rw [hr]; rfl
  exact ⟨_, _, hcomp, (compute_eq_scale (var := denseVariant eps) heps hh hsq hcomp).1,
    unscale_compute (var := denseVariant eps) heps hh hsq hcomp⟩

/-- C14, second half: scaling a primal-dual pair and unscaling it restores the pair, and conversely. -/
theorem unscalePair_scalePair {P : State K N M} (hP : Positive P) (xy : (Fin N → K) × (Fin M ⊕ Fin N → K)) :
    unscalePair P (scalePair P xy) = xy ∧ scalePair P (unscalePair P xy) = xy := by
  have hD := fun i => (hP.D i).ne'
  have hE := fun i => (hP.E i).ne'
  have hc := hP.c.ne'
  obtain ⟨x, y⟩ := xy
  simp only [unscalePair, scalePair, Prod.mk.injEq, Sum.elim_inl, Sum.elim_inr]
  refine ⟨⟨?_, ?_⟩, ?_, ?_⟩
  · funext i; have := hD i; field_simp
  · funext i
    rcases i with i | i
    · have := hE i; simp only [Sum.elim_inl]; field_simp
    · have := hD i; simp only [Sum.elim_inr]; field_simp
  · funext i; have := hD i; field_simp
  · funext i
    rcases i with i | i
    · have := hE i; simp only [Sum.elim_inl]; field_simp
    · have := hD i; simp only [Sum.elim_inr]; field_simp

/-- C14: `unscale_hessian` restores the Hessian. -/
theorem unscaleHessian_scale {P : State K N M} (hP : Positive P) (qp : QP K N M) :
    unscaleHessian P (scale P qp).H = qp.H := congrArg QP.H (unscale_scale hP qp)

/-! ## C15 -/

theorem scale_A_mulVec {P : State K N M} (hP : Positive P) (qp : QP K N M) (x : Fin N → K) (i : Fin M) :
    ((scale P qp).A *ᵥ fun j => x j * (P.D j)⁻¹) i = (qp.A *ᵥ x) i * P.E i := by
  simp only [scale, scaleBounds, scaleMatrices, Matrix.mulVec, dotProduct, Matrix.of_apply, Finset.sum_mul]
  refine Finset.sum_congr rfl fun j _ => ?_
  have := (hP.D j).ne'
  field_simp

theorem scale_H_mulVec {P : State K N M} (hP : Positive P) (qp : QP K N M) (x : Fin N → K) (i : Fin N) :
    ((scale P qp).H *ᵥ fun j => x j * (P.D j)⁻¹) i = P.c * P.D i * (qp.H *ᵥ x) i := by
  simp only [scale, scaleBounds, scaleMatrices, Matrix.mulVec, dotProduct, Matrix.of_apply, Finset.mul_sum]
  refine Finset.sum_congr rfl fun j _ => ?_
  have := (hP.D j).ne'
  field_simp

theorem scale_AT_mulVec {P : State K N M} (hP : Positive P) (qp : QP K N M) (y : Fin M → K) (i : Fin N) :
    ((scale P qp).Aᵀ *ᵥ fun j => P.c * (y j * (P.E j)⁻¹)) i = P.c * P.D i * (qp.Aᵀ *ᵥ y) i := by
  simp only [scale, scaleBounds, scaleMatrices, Matrix.mulVec, dotProduct, Matrix.of_apply, Finset.mul_sum,
    Matrix.transpose_apply]
  refine Finset.sum_congr rfl fun j _ => ?_
  have := (hP.E j).ne'
  field_simp

/-- C15. Feasible sets correspond. -/
theorem feasible_iff {P : State K N M} (hP : Positive P) (qp : QP K N M) (x : Fin N → K) (y : Fin M ⊕ Fin N → K) :
    (scale P qp).Feasible (scalePair P (x, y)).1 ↔ qp.Feasible x := by
  have hA := scale_A_mulVec hP qp x
  unfold QP.Feasible
  simp only [scalePair, hA]
  simp only [scale, scaleBounds, scaleMatrices]
  refine and_congr (forall_congr' fun i => ?_) (forall_congr' fun i => ?_)
  · have := hP.E i
    rw [mul_le_mul_iff_left₀ this, mul_le_mul_iff_left₀ this]
  · have := inv_pos.mpr (hP.D i)
    rw [mul_le_mul_iff_left₀ this, mul_le_mul_iff_left₀ this]

/-- C15. The objective is multiplied by the positive cost factor. -/
theorem objective_scale {P : State K N M} (hP : Positive P) (qp : QP K N M) (x : Fin N → K) (y : Fin M ⊕ Fin N → K) :
    (scale P qp).objective (scalePair P (x, y)).1 = P.c * qp.objective x := by
  have hH := scale_H_mulVec hP qp x
  have e1 : (scalePair P (x, y)).1 ⬝ᵥ (scale P qp).H *ᵥ (scalePair P (x, y)).1 = P.c * (x ⬝ᵥ qp.H *ᵥ x) := by
    simp only [dotProduct, Finset.mul_sum]
    refine Finset.sum_congr rfl fun i _ => ?_
    simp only [scalePair] at hH ⊢
    rw [hH]
    have := (hP.D i).ne'
    field_simp
  have e2 : (scale P qp).h ⬝ᵥ (scalePair P (x, y)).1 = P.c * (qp.h ⬝ᵥ x) := by
    simp only [dotProduct, Finset.mul_sum]
    refine Finset.sum_congr rfl fun i _ => ?_
    simp only [scalePair, scale, scaleBounds, scaleMatrices]
    have := (hP.D i).ne'
    field_simp
  unfold QP.objective
  rw [e1, e2]
  ring

theorem lagrangianGradient_scale {P : State K N M} (hP : Positive P) (qp : QP K N M) (x : Fin N → K)
    (y : Fin M ⊕ Fin N → K) (i : Fin N) :
    (scale P qp).lagrangianGradient (scalePair P (x, y)).1 (scalePair P (x, y)).2 i =
      P.c * P.D i * qp.lagrangianGradient x y i := by
  have hH := scale_H_mulVec hP qp x i
  have hA := scale_AT_mulVec hP qp (QP.yA y) i
  simp only [QP.lagrangianGradient, Pi.add_apply]
  have e1 : QP.yA (scalePair P (x, y)).2 = fun j => P.c * (QP.yA y j * (P.E j)⁻¹) := rfl
  rw [e1, hA]
  change ((scale P qp).H *ᵥ fun j => x j * (P.D j)⁻¹) i + _ + _ + _ = _
  rw [hH]
  simp only [scalePair, QP.yBox, Sum.elim_inr, scale, scaleBounds, scaleMatrices]
  ring

/-- C15. `(x, y)` satisfies the KKT conditions of the QP iff the scaled pair satisfies those of the scaled QP. -/
theorem kkt_iff {P : State K N M} (hP : Positive P) (qp : QP K N M) (x : Fin N → K) (y : Fin M ⊕ Fin N → K) :
    (scale P qp).KKT (scalePair P (x, y)).1 (scalePair P (x, y)).2 ↔ qp.KKT x y := by
  unfold QP.KKT
  refine and_congr ?_ ?_
  · rw [funext_iff, funext_iff]
    refine forall_congr' fun i => ?_
    rw [lagrangianGradient_scale hP]
    have := (mul_pos hP.c (hP.D i)).ne'
    simp [this, hP.c.ne', (hP.D i).ne']
  · unfold QP.InNormalCone
    refine forall_congr' fun i => ?_
    rcases i with i | i
    · have hA := scale_A_mulVec hP qp x i
      have hE := hP.E i
      have e0 : (scale P qp).rows (scalePair P (x, y)).1 (Sum.inl i) = (qp.A *ᵥ x) i * P.E i := hA
      have e1 : (scale P qp).lower (Sum.inl i) = qp.Alb i * P.E i := rfl
      have e2 : (scale P qp).upper (Sum.inl i) = qp.Aub i * P.E i := rfl
      have e3 : (scalePair P (x, y)).2 (Sum.inl i) = P.c * (P.E i)⁻¹ * y (Sum.inl i) := by
        simp only [scalePair, Sum.elim_inl]; ring
      have hp : 0 < P.c * (P.E i)⁻¹ := mul_pos hP.c (inv_pos.mpr hE)
      rw [e0, e1, e2, e3]
      have f1 : qp.rows x (Sum.inl i) = (qp.A *ᵥ x) i := rfl
      have f2 : qp.lower (Sum.inl i) = qp.Alb i := rfl
      have f3 : qp.upper (Sum.inl i) = qp.Aub i := rfl
      rw [f1, f2, f3, mul_le_mul_iff_left₀ hE, mul_le_mul_iff_left₀ hE, mul_left_inj' hE.ne', mul_left_inj' hE.ne']
      have g1 : 0 < P.c * (P.E i)⁻¹ * y (Sum.inl i) ↔ 0 < y (Sum.inl i) := by
        constructor
        · exact fun h => pos_of_mul_pos_right h hp.le
        · exact mul_pos hp
      have g2 : P.c * (P.E i)⁻¹ * y (Sum.inl i) < 0 ↔ y (Sum.inl i) < 0 := by
        constructor
        · exact fun h => by
            by_contra hn
            exact absurd (mul_nonneg hp.le (not_lt.mp hn)) (not_le.mpr h)
        · exact mul_neg_of_pos_of_neg hp
      rw [g1, g2]
    · have hD := inv_pos.mpr (hP.D i)
      have e0 : (scale P qp).rows (scalePair P (x, y)).1 (Sum.inr i) = x i * (P.D i)⁻¹ := rfl
      have e1 : (scale P qp).lower (Sum.inr i) = qp.xlb i * (P.D i)⁻¹ := rfl
      have e2 : (scale P qp).upper (Sum.inr i) = qp.xub i * (P.D i)⁻¹ := rfl
      have e3 : (scalePair P (x, y)).2 (Sum.inr i) = P.c * P.D i * y (Sum.inr i) := by
        simp only [scalePair, Sum.elim_inr]; ring
      have hp : 0 < P.c * P.D i := mul_pos hP.c (hP.D i)
      rw [e0, e1, e2, e3]
      have f1 : qp.rows x (Sum.inr i) = x i := rfl
      have f2 : qp.lower (Sum.inr i) = qp.xlb i := rfl
      have f3 : qp.upper (Sum.inr i) = qp.xub i := rfl
      rw [f1, f2, f3, mul_le_mul_iff_left₀ hD, mul_le_mul_iff_left₀ hD, mul_left_inj' hD.ne', mul_left_inj' hD.ne']
      have g1 : 0 < P.c * P.D i * y (Sum.inr i) ↔ 0 < y (Sum.inr i) := by
        constructor
        · exact fun h => pos_of_mul_pos_right h hp.le
        · exact mul_pos hp
      have g2 : P.c * P.D i * y (Sum.inr i) < 0 ↔ y (Sum.inr i) < 0 := by
        constructor
        · exact fun h => by
            by_contra hn
            exact absurd (mul_nonneg hp.le (not_lt.mp hn)) (not_le.mpr h)
        · exact mul_neg_of_pos_of_neg hp
      rw [g1, g2]

/-- C15, in the form used by the SQP solver: a KKT pair of the data left by `compute`, unscaled, is a KKT pair of the
original QP; and every KKT pair of the original QP arises in this way. -/
theorem compute_kkt [NeZero N] [NeZero M] {var : Variant K N M} (hz : 0 < var.approxZero) (hh : HNormNonneg var)
    {sq : K → K} (hsq : IsSqrt sq) {P P' : State K N M} {qp qp' : QP K N M}
    (h : compute var sq P qp = some (P', qp')) (x : Fin N → K) (y : Fin M ⊕ Fin N → K) :
    qp'.KKT x y ↔ qp.KKT (unscalePair P' (x, y)).1 (unscalePair P' (x, y)).2 := by
  obtain ⟨hP, rfl⟩ := compute_eq_scale hz hh hsq h
  have := kkt_iff hP qp (unscalePair P' (x, y)).1 (unscalePair P' (x, y)).2
  rw [Prod.mk.eta, (unscalePair_scalePair hP (x, y)).2] at this
  exact this

/-! ## C16 -/

/-- C16, the effect of `update`, dense and sparse: relative to the factors `D₀, E₀, c₀` recorded before the call,
`unscale` after `update` yields `H` multiplied by the product of the cost factors recorded before each sweep, divided by
`c₀`, in addition to the missing earlier scaling. -/
theorem update_then_unscale [NeZero N] [NeZero M] {var : Variant K N M} (hz : 0 < var.approxZero) (hh : HNormNonneg var)
    {sq : K → K} (hsq : IsSqrt sq) {continues : K → Bool} {P P' : State K N M} {qp qp' : QP K N M} {norm : K}
    (hP : Positive P) (h : loop var sq true continues 4 P qp norm = some (P', qp')) :
    ∃ cs : List K, cs.length ≤ 4 ∧ (cs = [] ∨ cs.head? = some P.c) ∧
      (∀ i j, (unscale P' (scaleBounds P' qp')).H i j = cs.prod / P.c * ((P.D i)⁻¹ * qp.H i j * (P.D j)⁻¹)) ∧
      (∀ i, (unscale P' (scaleBounds P' qp')).h i = cs.prod / P.c * (qp.h i * (P.D i)⁻¹)) ∧
      (∀ i j, (unscale P' (scaleBounds P' qp')).A i j = (P.E i)⁻¹ * qp.A i j * (P.D j)⁻¹) ∧
      (unscale P' (scaleBounds P' qp')).Alb = qp.Alb ∧ (unscale P' (scaleBounds P' qp')).Aub = qp.Aub ∧
      (unscale P' (scaleBounds P' qp')).xlb = qp.xlb ∧ (unscale P' (scaleBounds P' qp')).xub = qp.xub := by
  obtain ⟨mD, mE, g, cs, k1, k2, k3, k4, k5, k6, k7, -, k8, k9⟩ := loop_spec hz hh hsq 4 h
  have hD0 := fun i => (hP.D i).ne'
  have hE0 := fun i => (hP.E i).ne'
  have hc0 := hP.c.ne'
  have hD := fun i => (k1 i).ne'
  have hE := fun i => (k2 i).ne'
  have hg := k3.ne'
  refine ⟨cs, k7, k8 rfl, ?_, ?_, ?_, ?_, ?_, ?_, ?_⟩
  all_goals simp only [unscale, scaleBounds, k9, k4, k5, k6, scaleMatrices, Matrix.of_apply]
  · intro i j; have := hD i; have := hD j; have := hD0 i; have := hD0 j; field_simp
  · intro i; have := hD i; have := hD0 i; field_simp
  · intro i j; have := hE i; have := hD j; have := hE0 i; have := hD0 j; field_simp
  all_goals funext i
  · have := hE i; have := hE0 i; field_simp
  · have := hE i; have := hE0 i; field_simp
  · have := hD i; have := hD0 i; field_simp
  · have := hD i; have := hD0 i; field_simp

/-- The claim of C16: on a preconditioner without earlier scaling, `update` followed by `unscale` restores the QP. -/
def UpdateRestores (N M : ℕ) [NeZero N] [NeZero M] (eps lowest : K) (sq : K → K) : Prop :=
  ∀ (qp : QP K N M) (P' : State K N M) (qp' : QP K N M),
    updateSparse eps lowest (fun _ _ => true) (fun _ _ => true) sq init qp = some (P', qp') → unscale P' qp' = qp

/-- A QP with one variable and one constraint. -/
def tinyQP (H h A al au l u : K) : QP K 1 1 where
  H := Matrix.of fun _ _ => H
  h := fun _ => h
  A := Matrix.of fun _ _ => A
  Alb := fun _ => al
  Aub := fun _ => au
  xlb := fun _ => l
  xub := fun _ => u

/-- One sweep on a QP with one variable and one constraint and positive data. -/
theorem sweep_tiny {eps lowest : K} (hl : lowest < 0) {sq : K → K} {P : State K 1 1}
    {H h A al au l u sD sE : K} (hH : 0 < H) (hh : 0 < h) (hA : 0 < A) (h1 : eps ≤ A)
    (hD : sq (max H A) = sD) (hE : sq A = sE) (hDp : 0 < sD) (hc : 0 < P.c) :
    ∃ P', sweep (sparseVariant eps lowest (fun _ _ => true) (fun _ _ => true)) sq true P (tinyQP H h A al au l u) =
      some (P', tinyQP (P.c * sD⁻¹ * H * sD⁻¹ * (1 / max (P.c * sD⁻¹ * H * sD⁻¹) (P.c * (h * sD⁻¹))))
        (P.c * (h * sD⁻¹) * (1 / max (P.c * sD⁻¹ * H * sD⁻¹) (P.c * (h * sD⁻¹)))) (sE⁻¹ * A * sD⁻¹) al au l u, max H A) ∧
      P'.D 0 = P.D 0 * sD⁻¹ ∧ P'.E 0 = P.E 0 * sE⁻¹ ∧
      P'.c = P.c * (1 / max (P.c * sD⁻¹ * H * sD⁻¹) (P.c * (h * sD⁻¹))) := by
  have hst : ∀ x : K, 0 ≤ x → maxStored lowest (fun _ : Fin 1 => true) (fun _ => x) = x := by
    intro x hx
    have : ¬ x < lowest := not_lt.mpr (hl.le.trans hx)
    simp only [maxStored, List.finRange_succ, List.finRange_zero, List.map_nil, List.foldl_cons, List.foldl_nil, if_true,
      gt_iff_lt, abs_of_nonneg hx, if_neg this]
  have hin : ∀ v : Fin 1 → K, 0 ≤ v 0 → infNorm v = v 0 := by
    intro v hv
    refine le_antisymm ?_ ((le_abs_self _).trans (le_infNorm v 0))
    rw [infNorm_le_iff]
    refine ⟨hv, fun i => ?_⟩
    rw [Subsingleton.elim i 0, abs_of_nonneg hv]
  have hDi : 0 < sD⁻¹ := inv_pos.mpr hDp
  have hH1 : 0 ≤ P.c * sD⁻¹ * H * sD⁻¹ := by positivity
  have hh1 : 0 < P.c * (h * sD⁻¹) := by positivity
  have hm : 0 < max (P.c * sD⁻¹ * H * sD⁻¹) (P.c * (h * sD⁻¹)) := lt_max_of_lt_right hh1
  have eD : (fun j : Fin 1 => max ((sparseVariant eps lowest (fun _ _ => true) (fun _ _ => true) : Variant K 1 1).colH
      (tinyQP H h A al au l u).H j) ((sparseVariant eps lowest (fun _ _ => true) (fun _ _ => true) : Variant K 1 1).colA
      (tinyQP H h A al au l u).A j)) = fun _ => max H A := by
    funext j
    simp only [sparseVariant, tinyQP, Matrix.of_apply, hst H hH.le, hst A hA.le]
  have eE : (sparseVariant eps lowest (fun _ _ => true) (fun _ _ => true) : Variant K 1 1).rowA (tinyQP H h A al au l u).A =
      fun _ => A := by
    funext j
    simp only [sparseVariant, tinyQP, Matrix.of_apply, hst A hA.le]
  have gD : invSqrt sq (guardZero (sparseVariant eps lowest (fun _ _ => true) (fun _ _ => true) : Variant K 1 1).approxZero
      fun _ : Fin 1 => max H A) = fun _ => sD⁻¹ := by
    funext j
    change (sq (if max H A < eps then 1 else max H A))⁻¹ = _
    rw [if_neg (not_lt.mpr (h1.trans (le_max_right H A))), hD]
  have gE : invSqrt sq (guardZero (sparseVariant eps lowest (fun _ _ => true) (fun _ _ => true) : Variant K 1 1).approxZero
      fun _ : Fin 1 => A) = fun _ => sE⁻¹ := by
    funext j
    change (sq (if A < eps then 1 else A))⁻¹ = _
    rw [if_neg (not_lt.mpr h1), hE]
  have mx : ∀ x : K, maxCoeff (fun _ : Fin 1 => x) = x := fun x => Finset.sup'_const _ _
  have mn : ∀ x : K, mean (fun _ : Fin 1 => x) = x := fun x => by simp [mean]
  have hi := hin (fun _ => P.c * (h * sD⁻¹)) hh1.le
  unfold sweep
  simp only [eD, eE, gD, gE, mx, if_true]
  simp only [scaleMatrices, tinyQP, Matrix.of_apply, hi, sparseVariant, hst _ hH1, mn, id, if_neg hm.ne']
  refine ⟨_, congrArg some (Prod.ext rfl (Prod.ext ?_ ?_)), rfl, rfl, rfl⟩
  · rfl
  · exact max_eq_left (le_max_right H A)

/-- C16 fails for every ordered field and square root: for `H = A = 1/16`, `h = 1`, `update` on a fresh preconditioner
performs two sweeps and `unscale` then returns `H = 1/64`. -/
theorem update_does_not_restore {eps lowest : K} (heps : eps ≤ 1 / 16) (hl : lowest < 0) {sq : K → K} (hsq : IsSqrt sq) :
    ¬ UpdateRestores 1 1 eps lowest sq := by
  intro hall
  have uniq : ∀ a b : K, 0 ≤ b → b * b = a → sq a = b := by
    intro a b hb hab
    obtain ⟨h1, h2⟩ := hsq a (hab ▸ mul_self_nonneg b)
    exact (mul_self_inj h1 hb).mp (by rw [h2, hab])
  have q1 : sq (1 / 16) = (1 / 4 : K) := uniq _ _ (by norm_num) (by norm_num)
  have q2 : sq (1 : K) = 1 := uniq _ _ (by norm_num) (by norm_num)
  obtain ⟨P1, hs1, d1, -, c1⟩ := sweep_tiny (eps := eps) (lowest := lowest) (P := init) (sq := sq) (H := 1 / 16) (h := 1)
    (A := 1 / 16) (al := 0) (au := 1) (l := 0) (u := 1) (sD := 1 / 4) (sE := 1 / 4) hl (by norm_num) (by norm_num)
    (by norm_num) heps (by rw [max_self, q1]) q1 (by norm_num) (by simp [init])
  have m1 : max ((1 : K) * (1 / 4)⁻¹ * (1 / 16) * (1 / 4)⁻¹) (1 * (1 * (1 / 4)⁻¹)) = 4 := by norm_num
  have cI : (init : State K 1 1).c = 1 := rfl
  have dI : (init : State K 1 1).D 0 = 1 := rfl
  rw [cI] at c1 hs1
  rw [m1] at c1 hs1
  have c1' : P1.c = 1 / 4 := by rw [c1]; norm_num
  have hq1 : (tinyQP (1 * (1 / 4)⁻¹ * (1 / 16) * (1 / 4)⁻¹ * (1 / 4)) (1 * (1 * (1 / 4)⁻¹) * (1 / 4))
      ((1 / 4)⁻¹ * (1 / 16) * (1 / 4)⁻¹) 0 1 0 1 : QP K 1 1) = tinyQP (1 / 4) 1 1 0 1 0 1 := by norm_num
  rw [hq1] at hs1
  obtain ⟨P2, hs2, d2, -, c2⟩ := sweep_tiny (eps := eps) (lowest := lowest) (P := P1) (sq := sq) (H := 1 / 4) (h := 1)
    (A := 1) (al := 0) (au := 1) (l := 0) (u := 1) (sD := 1) (sE := 1) hl (by norm_num) (by norm_num)
    (by norm_num) (heps.trans (by norm_num)) (by rw [max_eq_right (by norm_num), q2]) q2 (by norm_num) (by rw [c1']; norm_num)
  have m2 : max ((1 / 4 : K) * 1⁻¹ * (1 / 4) * 1⁻¹) (1 / 4 * (1 * 1⁻¹)) = 1 / 4 := by norm_num
  rw [c1', m2] at c2 hs2
  have hnorm2 : max (1 / 4 : K) 1 = 1 := by norm_num
  have hnorm1 : max (1 / 16 : K) (1 / 16) = 1 / 16 := max_self _
  rw [hnorm2] at hs2
  rw [hnorm1] at hs1
  have hloop : loop (sparseVariant eps lowest (fun _ _ => true) (fun _ _ => true)) sq true
      (fun norm => decide (1 - norm ≥ tolerance)) 4 init (tinyQP (1 / 16) 1 (1 / 16) 0 1 0 1) (10 * tolerance) =
      some (P2, tinyQP (1 / 4 * 1⁻¹ * (1 / 4) * 1⁻¹ * (1 / (1 / 4))) (1 / 4 * (1 * 1⁻¹) * (1 / (1 / 4)))
        (1⁻¹ * 1 * 1⁻¹) 0 1 0 1) := by
    rw [loop, if_pos (by simp only [decide_eq_true_eq, tolerance, ge_iff_le]; norm_num), hs1]
    simp only
    rw [loop, if_pos (by simp only [decide_eq_true_eq, tolerance, ge_iff_le]; norm_num), hs2]
    simp only
    rw [loop, if_neg (by simp only [decide_eq_true_eq, tolerance, ge_iff_le]; norm_num)]
  have hres := hall (tinyQP (1 / 16) 1 (1 / 16) 0 1 0 1) P2 _ (by unfold updateSparse; rw [hloop]; rfl)
  have hH := congrFun (congrFun (congrArg QP.H hres) 0) 0
  simp only [unscale, scaleBounds, tinyQP, Matrix.of_apply, d2, d1, c2, dI] at hH
  norm_num at hH

/-- The counterexample as rational data. -/
def badQP : QP ℚ 1 1 := tinyQP (1 / 16) 1 (1 / 16) 0 1 0 1

/-- A square root on the rational squares that occur in the examples. -/
def sqrtQ (a : ℚ) : ℚ := if a = 1 / 16 then 1 / 4 else a

/-! ## C64, C65 -/

/-- C64. `compute` performs a single sweep whenever some entry of `H` or `A` is at least `0.999` in absolute value: the
recorded column factors are then `1 / sqrt(column norm)` and the data are not equilibrated further. -/
theorem single_sweep [NeZero N] [NeZero M] {eps : K} {sq : K → K} {P : State K N M} {qp : QP K N M}
    (hbig : (∃ i j, 999 / 1000 < |qp.H i j|) ∨ ∃ i j, 999 / 1000 < |qp.A i j|) :
    compute (denseVariant eps) sq P qp =
      (sweep (denseVariant eps) sq false init qp).map fun r => (r.1, scaleBounds r.1 r.2.1) := by
  have hloop : ∀ fuel (P : State K N M) (qp : QP K N M) (norm : K), 999 / 1000 < norm →
      loop (denseVariant eps) sq false (fun norm => decide (1 - norm ≥ tolerance)) fuel P qp norm = some (P, qp) := by
    intro fuel P qp norm hn
    cases fuel with
    | zero => rfl
    | succ fuel =>
      unfold loop
      rw [if_neg]
      simp only [decide_eq_true_eq, tolerance, ge_iff_le, not_le]
      linarith
  unfold compute
  unfold loop
  rw [if_pos (by simp only [decide_eq_true_eq, tolerance, ge_iff_le]; norm_num)]
  cases hs : sweep (denseVariant eps : Variant K N M) sq false init qp with
  | none => rfl
  | some r =>
    obtain ⟨P1, qp1, norm1⟩ := r
    simp only [Option.map_some]
    rw [hloop 3 P1 qp1 norm1]
    · rfl
    · unfold sweep at hs
      simp only at hs
      rw [Option.ite_none_left_eq_some] at hs
      obtain ⟨-, hs⟩ := hs
      simp only [Option.some.injEq, Prod.mk.injEq] at hs
      rw [← hs.2.2]
      rcases hbig with ⟨i, j, hij⟩ | ⟨i, j, hij⟩
      · refine lt_max_of_lt_left (lt_of_lt_of_le hij ?_)
        refine le_trans ?_ (Finset.le_sup' _ (Finset.mem_univ j))
        exact le_max_of_le_left (le_infNorm (fun i => qp.H i j) i)
      · refine lt_max_of_lt_right (lt_of_lt_of_le hij ?_)
        refine le_trans ?_ (Finset.le_sup' _ (Finset.mem_univ i))
        exact le_infNorm (fun j => qp.A i j) j

theorem foldl_stored {n : ℕ} (stored : Fin n → Bool) (l : List (Fin n)) (b : K) (hb : b ≤ 0) :
    l.foldl (fun best i => if stored i then (if best > |(0 : K)| then best else |(0 : K)|) else best) b ≤ 0 := by
  induction l generalizing b with
  | nil => exact hb
  | cons i l ih =>
    simp only [List.foldl_cons]
    refine ih _ ?_
    split_ifs <;> simp [hb]

/-- C65. On a pure feasibility problem (`H = 0`, `h = 0`), `compute` for sparse matrices divides by zero, whatever the
constraint data and the stored positions; on dense data it is always defined (`dense_compute_restores`). -/
theorem sparse_compute_undefined [NeZero N] [NeZero M] {lowest : K} (hl : lowest < 0) (sH : Fin N → Fin N → Bool)
    (sA : Fin M → Fin N → Bool) (sq : K → K) (P : State K N M) (qp : QP K N M) (hH : qp.H = 0) (hh : qp.h = 0) :
    compute (sparseVariant (1 / 10000) lowest sH sA) sq P qp = none := by
  have hs : sweep (sparseVariant (1 / 10000) lowest sH sA) sq false init qp = none := by
    unfold sweep
    simp only
    rw [if_pos]
    have e1 : ∀ (f : K) (mD : Fin N → K) (mE : Fin M → K), (scaleMatrices f mD mE qp).h = 0 := by
      intro f mD mE; funext i; simp [scaleMatrices, hh]
    have e2 : ∀ (f : K) (mD : Fin N → K) (mE : Fin M → K), (scaleMatrices f mD mE qp).H = 0 := by
      intro f mD mE; ext i j; simp [scaleMatrices, hH]
    rw [e1, e2]
    have e3 : infNorm (0 : Fin N → K) = 0 := by
      rcases infNorm_attained (0 : Fin N → K) with h | ⟨i, h⟩
      · exact h
      · rw [← h]; simp
    have e4 : mean ((sparseVariant (1 / 10000) lowest sH sA : Variant K N M).colH 0) ≤ 0 := by
      unfold mean
      refine div_nonpos_of_nonpos_of_nonneg (Finset.sum_nonpos fun j _ => ?_) (Nat.cast_nonneg _)
      exact foldl_stored (fun i => sH i j) _ lowest hl.le
    simp only [sparseVariant, e3, id] at e4 ⊢
    exact max_eq_right e4
  unfold compute loop
  rw [if_pos (by simp only [decide_eq_true_eq, tolerance, ge_iff_le]; norm_num), hs]
  rfl

/-! ## Non-vacuity -/

/-- The sparse variant satisfies the assumptions of `unscale_compute` and `compute_kkt`. -/
example (lowest : ℝ) (sH : Fin 2 → Fin 2 → Bool) (sA : Fin 3 → Fin 2 → Bool) :
    0 < (sparseVariant (1 / 10000) lowest sH sA : Variant ℝ 2 3).approxZero ∧
      HNormNonneg (sparseVariant (1 / 10000) lowest sH sA : Variant ℝ 2 3) ∧ IsSqrt Real.sqrt :=
  ⟨by norm_num [sparseVariant], fun _ h => h, fun a ha => ⟨Real.sqrt_nonneg a, Real.mul_self_sqrt ha⟩⟩

/-- A dense run with two sweeps that changes all factors. -/
example : ((compute (denseVariant (1 / 2 ^ 52)) sqrtQ init badQP).map fun r =>
    [r.1.D 0, r.1.E 0, r.1.c, r.2.H 0 0, r.2.h 0, r.2.A 0 0, r.2.xub 0]) = some [4, 4, 1 / 4, 1 / 4, 1, 1, 1 / 4] := by
  decide +kernel

/-! ### C16: the dense `update` -/

/-- C16. The loop of the dense `update` has the opposite condition: if all factors and norms left by the previous call are below `0.999`, the matrices are not scaled at all, while the bounds
are scaled with the earlier factors. -/
theorem dense_update_skips [NeZero N] [NeZero M] {eps : K} {sq : K → K} {P : State K N M} {qp : QP K N M} (hD : ∀ i, P.mD i < 999 / 1000) (hE : ∀ i, P.mE i < 999 / 1000) :
    updateDense eps sq P qp = some (P, { qp with
      Aub := fun i => qp.Aub i * P.E i
      Alb := fun i => qp.Alb i * P.E i
      xlb := fun i => qp.xlb i * (P.D i)⁻¹
      xub := fun i => qp.xub i * (P.D i)⁻¹ }) := by
  have h : ¬ (1 - max (maxCoeff P.mD) (maxCoeff P.mE) ≤ (tolerance : K)) := by
    have h1 : maxCoeff P.mD < 999 / 1000 := (Finset.sup'_lt_iff _).2 fun i _ => hD i
    have h2 : maxCoeff P.mE < 999 / 1000 := (Finset.sup'_lt_iff _).2 fun i _ => hE i
    have := max_lt h1 h2
    unfold tolerance
    intro h
    have e : (1 : K) - 1 / 1000 = 999 / 1000 := by norm_num
    have : 1 - 1 / 1000 ≤ max (maxCoeff P.mD) (maxCoeff P.mE) := by linarith
    rw [e] at this
    exact absurd this (not_le.2 (by assumption))
  unfold updateDense
  rw [show loop (denseUpdateVariant eps) sq true (fun norm => decide (1 - norm ≤ tolerance)) 4 P qp (max (maxCoeff P.mD) (maxCoeff P.mE)) = some (P, qp) from by
    unfold loop
    rw [if_neg (by simpa using h)]]
  rfl

/-- C16. Otherwise it sweeps, and divides by zero for pure feasibility problems, for which the dense `compute` is defined. -/
theorem dense_update_undefined [NeZero N] [NeZero M] {eps : K} {sq : K → K} {P : State K N M} {qp : QP K N M}
    (h : (∃ i, 999 / 1000 ≤ P.mD i) ∨ ∃ i, 999 / 1000 ≤ P.mE i) (hH : qp.H = 0) (hh : qp.h = 0) : updateDense eps sq P qp = none := by
  have hc : 1 - max (maxCoeff P.mD) (maxCoeff P.mE) ≤ (tolerance : K) := by
    have : 999 / 1000 ≤ max (maxCoeff P.mD) (maxCoeff P.mE) := by
      rcases h with ⟨i, hi⟩ | ⟨i, hi⟩
      · exact le_max_of_le_left (hi.trans (Finset.le_sup' P.mD (Finset.mem_univ i)))
      · exact le_max_of_le_right (hi.trans (Finset.le_sup' P.mE (Finset.mem_univ i)))
    have e : (1 : K) - 999 / 1000 = 1 / 1000 := by norm_num
    unfold tolerance
    rw [← e]
    linarith
  have hs : sweep (denseUpdateVariant eps) sq true P qp = none := by
    unfold sweep
    simp only
    rw [if_pos]
    have e1 : ∀ (f : K) (mD : Fin N → K) (mE : Fin M → K), (scaleMatrices f mD mE qp).h = 0 := by
      intro f mD mE; funext i; simp [scaleMatrices, hh]
    have e2 : ∀ (f : K) (mD : Fin N → K) (mE : Fin M → K), (scaleMatrices f mD mE qp).H = 0 := by
      intro f mD mE; ext i j; simp [scaleMatrices, hH]
    rw [e1, e2]
    have e3 : infNorm (0 : Fin N → K) = 0 := by
      rcases infNorm_attained (0 : Fin N → K) with h | ⟨i, h⟩
      · exact h
      · rw [← h]; simp
    have e4 : (denseUpdateVariant eps : Variant K N M).colH 0 = fun _ => 0 := by
      funext j
      exact e3
    rw [e4, e3]
    unfold mean
    simp [denseUpdateVariant]
  unfold updateDense
  rw [show loop (denseUpdateVariant eps) sq true (fun norm => decide (1 - norm ≤ tolerance)) 4 P qp (max (maxCoeff P.mD) (maxCoeff P.mE)) = none from by
    unfold loop
    rw [if_pos (by simpa using hc), hs]]
  rfl

/-- After a scaling with `D = 1 / 2`, `c = 2`, whose matrices have norms one half, the new Hessian `8` is taken for the scaled one. -/
example : ∃ P : State ℚ 1 1, ∀ eps sq, (updateDense eps sq P (tinyQP 8 1 1 0 1 0 1)).map (fun r => (r.2.H 0 0, (unscale r.1 r.2).H 0 0, r.2.xub 0)) = some (8, 16, 2) := by
  refine ⟨⟨fun _ => 1 / 2, fun _ => 1, 2, fun _ => 1 / 2, fun _ => 1 / 2⟩, fun eps sq => ?_⟩
  rw [dense_update_skips (fun _ => by norm_num) (fun _ => by norm_num)]
  simp only [Option.map_some, unscale, tinyQP, Matrix.of_apply]
  norm_num

end PolyMPC.Ruiz
