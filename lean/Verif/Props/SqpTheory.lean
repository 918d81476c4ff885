import Verif.Props.Sqp
import Verif.Lemmas.QP
import Verif.Props.QuasiNewton
import Mathlib.Analysis.Calculus.LineDeriv.Basic
import Mathlib.Analysis.SpecificLimits.Basic
import Mathlib.Analysis.Calculus.Deriv.Pow

/-!
# Properties C66 to C72 (SQP: stationary points, descent, line search, Hessians, history, multipliers)
-/

set_option linter.unusedSectionVars false

namespace PolyMPC.Sqp
open Matrix PolyMPC.Spec PolyMPC.QuasiNewton

universe u

variable {K : Type u} [Field K] [LinearOrder K] [IsStrictOrderedRing K] {n me mi : ℕ}
variable {prec : Precond K n (me + mi)} {qps : QPSolver K n (me + mi)}

/-! ## Facts about the optimality conditions of a QP -/

theorem dot_mulVec_transpose {m : ℕ} (A : Matrix (Fin m) (Fin n) K) (p : Fin n → K) (y : Fin m → K) :
    p ⬝ᵥ (Aᵀ *ᵥ y) = (A *ᵥ p) ⬝ᵥ y := by
  rw [Matrix.mulVec_transpose, dotProduct_comm, ← Matrix.dotProduct_mulVec, dotProduct_comm]

theorem kkt_dot {m : ℕ} {qp : QP K n m} {p : Fin n → K} {y : Fin m ⊕ Fin n → K} (h : qp.KKT p y) (d : Fin n → K) :
    d ⬝ᵥ qp.H *ᵥ p + qp.h ⬝ᵥ d + ∑ i, qp.rows d i * y i = 0 := by
  have h1 : d ⬝ᵥ qp.lagrangianGradient p y = 0 := by rw [h.1, dotProduct_zero]
  rw [QP.lagrangianGradient, dotProduct_add, dotProduct_add, dotProduct_add, dot_mulVec_transpose] at h1
  rw [Fintype.sum_sum_type]
  simp only [QP.rows, Sum.elim_inl, Sum.elim_inr]
  simp only [dotProduct, QP.yA, QP.yBox] at h1 ⊢
  have : ∑ i, qp.h i * d i = ∑ i, d i * qp.h i := Finset.sum_congr rfl fun i _ => mul_comm _ _
  rw [this]
  linarith

theorem cone_monotone {ι : Type*} {lb ub z y z' y' : ι → K} (h : QP.InNormalCone lb ub z y)
    (h' : QP.InNormalCone lb ub z' y') (i : ι) : 0 ≤ (z i - z' i) * (y i - y' i) := by
  obtain ⟨⟨a1, a2⟩, a3, a4⟩ := h i
  obtain ⟨⟨b1, b2⟩, b3, b4⟩ := h' i
  rcases lt_trichotomy (y i) 0 with hy | hy | hy <;> rcases lt_trichotomy (y' i) 0 with hy' | hy' | hy'
  all_goals
    first
      | have e1 := a3 hy
      | have e1 := a4 hy
      | skip
    first
      | have e2 := b3 hy'
      | have e2 := b4 hy'
      | skip
    nlinarith

/-- The primal solution of a strictly convex QP is unique. -/
theorem kkt_primal_unique {m : ℕ} {qp : QP K n m} (hH : SPD qp.H) {p p' : Fin n → K} {y y' : Fin m ⊕ Fin n → K}
    (h : qp.KKT p y) (h' : qp.KKT p' y') : p = p' := by
  by_contra hne
  have hpos := hH.2 (p - p') (sub_ne_zero.mpr hne)
  have k1 := kkt_dot h (p - p')
  have k2 := kkt_dot h' (p - p')
  have hrows : ∀ i, qp.rows (p - p') i = qp.rows p i - qp.rows p' i := by
    rintro (i | i)
    · simp only [QP.rows, Sum.elim_inl, Matrix.mulVec_sub, Pi.sub_apply]
    · simp only [QP.rows, Sum.elim_inr, Pi.sub_apply]
  have hs : 0 ≤ ∑ i, (qp.rows p i - qp.rows p' i) * (y i - y' i) :=
    Finset.sum_nonneg fun i _ => cone_monotone h.2 h'.2 i
  simp only [hrows] at k1 k2
  simp only [mul_sub, Finset.sum_sub_distrib] at hs
  rw [Matrix.mulVec_sub, dotProduct_sub] at hpos
  linarith

/-! ## C66 -/

/-- Multipliers of the equalities, inequalities and bounds in a dual vector. -/
abbrev lamE (y : Dual K n me mi) : Fin me → K := fun i => y (Sum.inl (Fin.castAdd mi i))
/-- See `lamE`. -/
abbrev lamI (y : Dual K n me mi) : Fin mi → K := fun i => y (Sum.inl (Fin.natAdd me i))
/-- See `lamE`. -/
abbrev lamX (y : Dual K n me mi) : Fin n → K := fun i => y (Sum.inr i)

theorem split_transpose (A : Matrix (Fin (me + mi)) (Fin n) K) (y : Dual K n me mi) :
    Aᵀ *ᵥ QP.yA y = (eqRows A)ᵀ *ᵥ lamE y + (ineqRows A)ᵀ *ᵥ lamI y := by
  funext j
  simp only [Matrix.mulVec, dotProduct, Matrix.transpose_apply, Pi.add_apply, Fin.sum_univ_add, QP.yA,
    Matrix.submatrix_apply, id]

/-- C66: the zero step with multipliers `y` is optimal for the QP formed at `x` iff `x` with the multipliers `y` satisfies
the first-order optimality conditions of the nonlinear program. -/
theorem zero_step_optimal_iff (bd : Bounds K n mi) (x : Fin n → K) (H : Matrix (Fin n) (Fin n) K) (h : Fin n → K)
    (A : Matrix (Fin (me + mi)) (Fin n) K) (b : Fin (me + mi) → K) (y : Dual K n me mi) :
    (formQP bd x H h A b).KKT 0 y ↔
      NlpKKT h (eqRows A) (ineqRows A) (fun i => b (Fin.castAdd mi i)) (fun i => b (Fin.natAdd me i)) bd.lbg bd.ubg
        x bd.lbx bd.ubx (lamE y) (lamI y) (lamX y) := by
  unfold QP.KKT NlpKKT NlpFeasible QP.InNormalCone
  refine and_congr ?_ ?_
  · have : (formQP bd x H h A b).lagrangianGradient 0 y =
        h + (eqRows A)ᵀ *ᵥ lamE y + (ineqRows A)ᵀ *ᵥ lamI y + lamX y := by
      unfold QP.lagrangianGradient
      change H *ᵥ 0 + h + Aᵀ *ᵥ QP.yA y + QP.yBox y = _
      rw [split_transpose, Matrix.mulVec_zero, zero_add, ← add_assoc]
      rfl
    rw [this]
  · rw [Sum.forall, Fin.forall_fin_add]
    simp only [QP.lower, QP.upper, QP.rows, Sum.elim_inl, Sum.elim_inr, formQP, Fin.addCases_left, Fin.addCases_right,
      Matrix.mulVec_zero, Pi.zero_apply]
    constructor
    · rintro ⟨⟨h1, h2⟩, h3⟩
      refine ⟨⟨fun i => ?_, fun i => ?_, fun i => ?_⟩, fun i => ⟨fun hp => ?_, fun hp => ?_⟩,
        fun i => ⟨fun hp => ?_, fun hp => ?_⟩⟩
      · obtain ⟨⟨a, b⟩, -⟩ := h1 i; linarith
      · obtain ⟨⟨a, b⟩, -⟩ := h2 i; constructor <;> linarith
      · obtain ⟨⟨a, b⟩, -⟩ := h3 i; constructor <;> linarith
      · linarith [(h2 i).2.1 hp]
      · linarith [(h2 i).2.2 hp]
      · linarith [(h3 i).2.1 hp]
      · linarith [(h3 i).2.2 hp]
    · rintro ⟨⟨h1, h2, h3⟩, h4, h5⟩
      refine ⟨⟨fun i => ⟨⟨?_, ?_⟩, fun _ => ?_, fun _ => ?_⟩, fun i => ⟨⟨?_, ?_⟩, fun hp => ?_, fun hp => ?_⟩⟩,
        fun i => ⟨⟨?_, ?_⟩, fun hp => ?_, fun hp => ?_⟩⟩
      · linarith [h1 i]
      · linarith [h1 i]
      · linarith [h1 i]
      · linarith [h1 i]
      · linarith [(h2 i).1]
      · linarith [(h2 i).2]
      · linarith [(h4 i).1 hp]
      · linarith [(h4 i).2 hp]
      · linarith [(h3 i).1]
      · linarith [(h3 i).2]
      · linarith [(h5 i).1 hp]
      · linarith [(h5 i).2 hp]

/-- `x` with some multipliers satisfies the first-order optimality conditions of the nonlinear program. -/
def Stationary (prob : Problem K n me mi) (bd : Bounds K n mi) (x : Fin n → K) (y : Dual K n me mi) : Prop :=
  NlpKKT (prob.costGrad x) (eqRows (prob.jac x)) (ineqRows (prob.jac x)) (prob.eq x) (prob.ineq x) bd.lbg bd.ubg
    x bd.lbx bd.ubx (lamE y) (lamI y) (lamX y)

/-- The constraint values returned together with the Jacobian are those of `equalities` and `inequalities`. -/
def Coherent (prob : Problem K n me mi) : Prop :=
  ∀ x, (∀ i, prob.constr x (Fin.castAdd mi i) = prob.eq x i) ∧ ∀ i, prob.constr x (Fin.natAdd me i) = prob.ineq x i

theorem zero_step_iff_stationary {prob : Problem K n me mi} (hc : Coherent prob) (bd : Bounds K n mi) (x : Fin n → K)
    (H : Matrix (Fin n) (Fin n) K) (y : Dual K n me mi) :
    (formQP bd x H (prob.costGrad x) (prob.jac x) (prob.constr x)).KKT 0 y ↔ Stationary prob bd x y := by
  rw [zero_step_optimal_iff]
  have h1 : (fun i => prob.constr x (Fin.castAdd mi i)) = prob.eq x := funext (hc x).1
  have h2 : (fun i => prob.constr x (Fin.natAdd me i)) = prob.ineq x := funext (hc x).2
  rw [h1, h2]
  rfl

/-- C66: if the Hessian of the QP is positive definite, the optimal step is zero iff `x` is stationary for some
multipliers; the multipliers of the QP are then multipliers of the nonlinear program. -/
theorem step_zero_iff {prob : Problem K n me mi} (hc : Coherent prob) {bd : Bounds K n mi} {x : Fin n → K}
    {H : Matrix (Fin n) (Fin n) K} (hH : SPD H) {p : Fin n → K} {y : Dual K n me mi}
    (hk : (formQP bd x H (prob.costGrad x) (prob.jac x) (prob.constr x)).KKT p y) :
    (p = 0 ↔ ∃ y', Stationary prob bd x y') ∧ (p = 0 → Stationary prob bd x y) := by
  refine ⟨⟨fun hp => ?_, fun ⟨y', hy'⟩ => ?_⟩, fun hp => ?_⟩
  · subst hp; exact ⟨y, (zero_step_iff_stationary hc bd x H y).mp hk⟩
  · exact kkt_primal_unique (qp := formQP bd x H (prob.costGrad x) (prob.jac x) (prob.constr x)) hH hk
      ((zero_step_iff_stationary hc bd x H y').mpr hy')
  · subst hp; exact (zero_step_iff_stationary hc bd x H y).mp hk

/-- The QP solver returns an optimal pair of every strictly convex QP that has one. -/
def ExactQP (qps : QPSolver K n (me + mi)) : Prop :=
  ∀ m (qp : QP K n (me + mi)), SPD qp.H → (∃ x y, qp.KKT x y) → qp.KKT (qps.solve m qp).2.1 (qps.solve m qp).2.2.1

open Classical in
/-- There are QP solvers that are exact in this sense. -/
example (n me mi : ℕ) : ∃ qps : QPSolver K n (me + mi), ExactQP qps :=
  ⟨{ Mem := PUnit
     solve := fun m qp => if h : ∃ x y, qp.KKT x y then (m, h.choose, h.choose_spec.choose, 1) else (m, 0, 0, 1) },
    fun m qp _ h => by simp only [dif_pos h]; exact h.choose_spec.choose_spec⟩

/-- Undoing the scaling restores the QP, and optimal pairs of the scaled QP are mapped to optimal pairs of the QP. -/
structure LawfulPrecond {m : ℕ} (prec : Precond K n m) : Prop where
  restores : ∀ {mem mem' qp scaled}, prec.compute mem qp = some (mem', scaled) → prec.unscale mem' scaled = qp
  kkt : ∀ {mem mem' qp scaled}, prec.compute mem qp = some (mem', scaled) → ∀ x y, scaled.KKT x y →
    qp.KKT (prec.unscalePair mem' (x, y)).1 (prec.unscalePair mem' (x, y)).2
  kkt_exists : ∀ {mem mem' qp scaled}, prec.compute mem qp = some (mem', scaled) → (∃ x y, qp.KKT x y) →
    ∃ x y, scaled.KKT x y
  spd : ∀ {mem mem' qp scaled}, prec.compute mem qp = some (mem', scaled) → SPD qp.H → SPD scaled.H

theorem identity_lawful (m : ℕ) : LawfulPrecond (identityPrecond K n m) where
  restores h := (congrArg Prod.snd (Option.some.inj h)).symm
  kkt h x y hk := by obtain rfl := congrArg Prod.snd (Option.some.inj h); exact hk
  kkt_exists h hk := by obtain rfl := congrArg Prod.snd (Option.some.inj h); exact hk
  spd h hk := by obtain rfl := congrArg Prod.snd (Option.some.inj h); exact hk

theorem ruiz_lawful {m : ℕ} [NeZero n] [NeZero m] {var : Ruiz.Variant K n m} (hz : 0 < var.approxZero)
    (hh : Ruiz.HNormNonneg var) {sq : K → K} (hsq : IsSqrt sq) : LawfulPrecond (ruizPrecond var sq) where
  restores {mem _ _ _} h := Ruiz.unscale_compute (P := mem) hz hh hsq h
  kkt {mem _ _ _} h x y hk := (Ruiz.compute_kkt (P := mem) hz hh hsq h x y).mp hk
  kkt_exists {mem mem' qp scaled} h := by
    rintro ⟨x, y, hk⟩
    obtain ⟨hP, rfl⟩ := Ruiz.compute_eq_scale (P := mem) hz hh hsq h
    exact ⟨_, _, (Ruiz.kkt_iff hP qp x y).mpr hk⟩
  spd {mem mem' qp scaled} h hk := by
    obtain ⟨hP, rfl⟩ := Ruiz.compute_eq_scale (P := mem) hz hh hsq h
    have hc := hP.c
    refine ⟨?_, fun x hx => ?_⟩
    · ext i j
      have : qp.H j i = qp.H i j := congrFun (congrFun hk.1 i) j
      simp only [Ruiz.scale, Ruiz.scaleBounds, Ruiz.scaleMatrices, Matrix.transpose_apply, Matrix.of_apply, this]
      ring
    · have hz : (fun i => x i * mem'.D i) ≠ 0 := by
        obtain ⟨i, hi⟩ := Function.ne_iff.mp hx
        exact Function.ne_iff.mpr ⟨i, mul_ne_zero hi (hP.D i).ne'⟩
      have hpos := hk.2 _ hz
      have e : x ⬝ᵥ (Ruiz.scale mem' qp).H *ᵥ x =
          mem'.c * ((fun i => x i * mem'.D i) ⬝ᵥ qp.H *ᵥ fun i => x i * mem'.D i) := by
        simp only [Ruiz.scale, Ruiz.scaleBounds, Ruiz.scaleMatrices, dotProduct, Matrix.mulVec, Matrix.of_apply,
          Finset.mul_sum]
        exact Finset.sum_congr rfl fun i _ => Finset.sum_congr rfl fun j _ => by ring
      rw [e]
      exact mul_pos hc hpos

/-- What a QP step does when the QP solver is exact and the preconditioner lawful. -/
theorem qpStep_exact {env : Env K n me mi prec qps} (hl : LawfulPrecond prec) (hex : ExactQP qps)
    {q s : State K n me mi prec qps} (h : qpStep env q = some s) (hH : SPD q.qp.H) (hk : ∃ x y, q.qp.KKT x y) :
    ∃ p, q.qp.KKT p s.lamK ∧ s.qp = q.qp ∧
      s.x = (fun i => q.x i + (env.stepSize q.qp.h s.lamK q.x p q.cost).1 * p i) ∧
      s.stepPrev = (fun i => (env.stepSize q.qp.h s.lamK q.x p q.cost).1 * p i) ∧
      s.lam = (fun i => q.lam i + (env.stepSize q.qp.h s.lamK q.x p q.cost).1 * (s.lamK i - q.lam i)) ∧
      s.primalNorm = (env.stepSize q.qp.h s.lamK q.x p q.cost).1 * infNorm p := by
  obtain ⟨mem, scaled, p, lamK, alpha, logged, h1, h2, h3, h4, h5, -, h6, h7, h8, h9, -⟩ := qpStep_spec h
  have hk2 := hl.kkt h1 _ _ (hex q.qpMem scaled (hl.spd h1 hH) (hl.kkt_exists h1 hk))
  rw [← h2] at hk2
  have hr := hl.restores h1
  rw [h3, hr] at h4
  have hα : alpha = (env.stepSize q.qp.h lamK q.x p q.cost).1 := congrArg Prod.fst h4
  refine ⟨p, ?_, h3.trans hr, ?_, ?_, ?_, ?_⟩
  · rw [h5]; exact hk2
  · rw [h5, ← hα, h6]
  · rw [h5, ← hα, h8]
  · rw [h5, ← hα, h7]; rfl
  · rw [h5, ← hα, h9]

/-! ## C69 -/

/-- The Hessian update maps positive definite matrices to positive definite matrices. -/
def KeepsSPD (env : Env K n me mi prec qps) : Prop := ∀ H s y H', SPD H → env.hessUpdate H s y = some H' → SPD H'

theorem qpStep_restores {env : Env K n me mi prec qps} (hl : LawfulPrecond prec) {q s : State K n me mi prec qps}
    (h : qpStep env q = some s) : s.qp = q.qp := by
  obtain ⟨mem, scaled, p, lamK, alpha, logged, h1, h2, h3, -⟩ := qpStep_spec h
  exact h3.trans (hl.restores h1)

theorem visited_spd [NeZero n] {env : Env K n me mi prec qps} (hl : LawfulPrecond prec) (hu : KeepsSPD env)
    {st s : State K n me mi prec qps} (h0 : SPD (env.regularise (env.prob.lagHess st.x st.lam))) (h : Visited env st s) :
    SPD s.qp.H := by
  induction h with
  | first hp =>
    unfold firstPass at hp
    rw [Option.map_eq_some_iff] at hp
    obtain ⟨s2, h2, rfl⟩ := hp
    change SPD s2.qp.H
    rw [qpStep_restores hl h2]
    exact h0
  | @next v s hv ht hlt hp ih =>
    obtain ⟨s1, s2, h1, h2, rfl⟩ := pass_parts hp
    obtain ⟨H, hH, hs1⟩ := updateLinearisation_spec h1
    change SPD (callback env s2).qp.H
    rw [(callback_fields env s2).2.2.2.2.2.2.1, qpStep_restores hl h2, hs1]
    exact hu _ _ _ _ ih hH

/-- The linearisation from which each iteration starts has a positive definite Hessian. -/
theorem visited_step_spd [NeZero n] {env : Env K n me mi prec qps} (hl : LawfulPrecond prec) (hu : KeepsSPD env)
    {st s : State K n me mi prec qps} (h0 : SPD (env.regularise (env.prob.lagHess st.x st.lam))) (h : Visited env st s) :
    ∃ q s2 H, From env st s q.x q.lam ∧ SPD H ∧
      q.qp = formQP env.bd q.x H (env.prob.costGrad q.x) (env.prob.jac q.x) (env.prob.constr q.x) ∧
      qpStep env q = some s2 ∧ s.x = s2.x ∧ s.lam = s2.lam ∧ s.lamK = s2.lamK ∧ s.primalNorm = s2.primalNorm ∧
      s.dualNorm = s2.dualNorm ∧ s.qp = s2.qp ∧ s.stepPrev = s2.stepPrev := by
  obtain ⟨q, s2, hf, ⟨H, hH, hor⟩, hq, e1, e2, e3, e4, e5, e6, e7, -⟩ := visited_step h
  refine ⟨q, s2, H, hf, ?_, hH, hq, e1, e2, e3, e4, e5, e6, e7⟩
  have := visited_spd hl hu h0 h
  rw [e6, qpStep_restores hl hq, hH] at this
  exact this

/-- C69: with the default BFGS update, a lawful preconditioner and a positive definite Hessian at the starting point, every
QP of the run is strictly convex, in scaled and in unscaled form. -/
theorem every_qp_strictly_convex [NeZero n] {eps : K} (heps : 0 < eps) {cfg : Settings K} {prob : Problem K n me mi}
    {bd : Bounds K n mi} (hl : LawfulPrecond prec) {st s : State K n me mi prec qps}
    (h0 : SPD (prob.lagHess st.x st.lam)) (h : Visited (defaultEnv eps cfg prob bd) st s) : SPD s.qp.H := by
  refine visited_spd (env := defaultEnv eps cfg prob bd) hl (fun H s y H' hH hs => ?_) h0 h
  obtain ⟨B', hB, hS⟩ := bfgs_keeps_spd heps hH s y
  have : some H' = some B' := hs.symm.trans hB
  rw [Option.some.inj this]; exact hS

/-- C69: under the same assumptions, if moreover `compute` of the preconditioner never divides by zero, neither does
`solve`. -/
theorem solve_defined [NeZero n] {eps : K} (heps : 0 < eps) {cfg : Settings K} {prob : Problem K n me mi}
    {bd : Bounds K n mi} (hl : LawfulPrecond prec) (hp : ∀ m qp, ∃ r, prec.compute m qp = some r)
    (st : State K n me mi prec qps) (h0 : SPD (prob.lagHess st.x st.lam)) :
    ∃ r, solve (defaultEnv eps cfg prob bd) st = some r := by
  have hq : ∀ st, ∃ s, qpStep (defaultEnv eps cfg prob bd : Env K n me mi prec qps) st = some s := by
    intro st
    obtain ⟨r, hr⟩ := hp st.precMem st.qp
    exact ⟨_, by rw [qpStep, hr]; rfl⟩
  have hpass : ∀ st, SPD st.qp.H → ∃ s, pass (defaultEnv eps cfg prob bd : Env K n me mi prec qps) st = some s := by
    intro st hst
    obtain ⟨H, hH, -⟩ := bfgs_keeps_spd heps hst st.stepPrev (prob.lagGrad st.x st.lam - st.lagGradient)
    have : ∃ s1, updateLinearisation (defaultEnv eps cfg prob bd : Env K n me mi prec qps)
        { st with iter := st.iter + 1 } = some s1 := by
      unfold updateLinearisation
      simp only [defaultEnv, hH, Option.map_some]
      exact ⟨_, rfl⟩
    obtain ⟨s1, hs1⟩ := this
    obtain ⟨s2, hs2⟩ := hq s1
    exact ⟨_, by rw [pass, hs1, Option.bind_some, hs2]; rfl⟩
  have hloop : ∀ fuel s, Visited (defaultEnv eps cfg prob bd) st s → terminated (defaultEnv eps cfg prob bd) s = false →
      ∃ r, loop (defaultEnv eps cfg prob bd) fuel s = some r := by
    intro fuel
    induction fuel with
    | zero => exact fun s _ _ => ⟨s, rfl⟩
    | succ k ih =>
      intro s hv ht
      rw [loop_succ]
      split_ifs with hlt
      · obtain ⟨s', hs⟩ := hpass s (every_qp_strictly_convex heps hl h0 hv)
        rw [hs, Option.bind_some]
        split_ifs with ht'
        · exact ⟨_, rfl⟩
        · exact ih s' (.next hv ht hlt hs) (by simpa using ht')
      · exact ⟨s, rfl⟩
  rw [solve_eq]
  obtain ⟨s, hs⟩ := hq (linearise (defaultEnv eps cfg prob bd) (start st))
  have hf : firstPass (defaultEnv eps cfg prob bd) st = some (measure (defaultEnv eps cfg prob bd) s) := by
    rw [firstPass, hs]; rfl
  rw [hf, Option.bind_some]
  split_ifs with ht
  · exact ⟨_, rfl⟩
  · exact hloop _ _ (.first hf) (by simpa using ht)

/-- The example problem satisfies the assumptions of `solve_defined`. -/
example : SPD ((demoProblem 0).lagHess (fun _ => 3) fun _ => 0) ∧ LawfulPrecond (identityPrecond ℚ 1 (1 + 0)) ∧
    ∀ m qp, ∃ r, (identityPrecond ℚ 1 (1 + 0)).compute m qp = some r := by
  refine ⟨⟨rfl, fun x hx => ?_⟩, identity_lawful _, fun m qp => ⟨_, rfl⟩⟩
  have h0 : x 0 ≠ 0 := fun h => hx (funext fun i => by rw [Subsingleton.elim i 0]; exact h)
  simp only [demoProblem, dotProduct, Matrix.mulVec, Finset.univ_unique, Fin.default_eq_zero, Finset.sum_singleton,
    Matrix.of_apply, one_mul]
  exact mul_self_pos.mpr h0

/-! ## C66, continued -/

/-- C66: `solve` started at a stationary point, with an exact QP solver and positive definite Hessians, does not move. -/
theorem stationary_point_kept [NeZero n] {env : Env K n me mi prec qps} (hl : LawfulPrecond prec) (hex : ExactQP qps)
    (hu : KeepsSPD env) (hc : Coherent env.prob) {st : State K n me mi prec qps} {y : Dual K n me mi}
    (h0 : SPD (env.regularise (env.prob.lagHess st.x st.lam))) (hs : Stationary env.prob env.bd st.x y) :
    (∀ {s}, Visited env st s → s.x = st.x ∧ s.stepPrev = 0 ∧ Stationary env.prob env.bd st.x s.lamK) ∧
    ∀ {r}, solve env st = some r → r.x = st.x := by
  have key : ∀ q s2 : State K n me mi prec qps, ∀ H, q.x = st.x → SPD H →
      q.qp = formQP env.bd q.x H (env.prob.costGrad q.x) (env.prob.jac q.x) (env.prob.constr q.x) →
      qpStep env q = some s2 → s2.x = st.x ∧ s2.stepPrev = 0 ∧ Stationary env.prob env.bd st.x s2.lamK := by
    intro q s2 H hx hH hqp hq
    rw [hx] at hqp
    have hk : q.qp.KKT 0 y := by rw [hqp]; exact (zero_step_iff_stationary hc _ _ _ _).mpr hs
    have hS : SPD q.qp.H := by rw [hqp]; exact hH
    obtain ⟨p, hp, -, h1, h2, -⟩ := qpStep_exact hl hex hq hS ⟨_, _, hk⟩
    have hp0 : p = 0 := kkt_primal_unique hS hp hk
    subst hp0
    refine ⟨?_, ?_, ?_⟩
    · rw [h1, hx]; funext i; simp
    · rw [h2]; funext i; simp
    · rw [hqp] at hp
      exact (zero_step_iff_stationary hc _ _ _ _).mp hp
  have hvis : ∀ {s}, Visited env st s → s.x = st.x ∧ s.stepPrev = 0 ∧ Stationary env.prob env.bd st.x s.lamK := by
    intro s hv
    induction hv with
    | first hp =>
      unfold firstPass at hp
      rw [Option.map_eq_some_iff] at hp
      obtain ⟨s2, h2, rfl⟩ := hp
      exact key (linearise env (start st)) s2 _ rfl h0 rfl h2
    | @next v s hv ht hlt hp ih =>
      obtain ⟨s1, s2, h1, h2, rfl⟩ := pass_parts hp
      obtain ⟨H, hH, hs1⟩ := updateLinearisation_spec h1
      have := key s1 s2 H (by rw [hs1]; exact ih.1) (hu _ _ _ _ (visited_spd hl hu h0 hv) hH) (by rw [hs1]) h2
      obtain ⟨c1, -, -, -, -, -, -, c8, c9, -⟩ := callback_fields env s2
      refine ⟨c1.trans this.1, c8.trans this.2.1, ?_⟩
      change Stationary _ _ _ (callback env s2).lamK
      rw [c9]; exact this.2.2
  refine ⟨hvis, fun {r} hr => ?_⟩
  obtain ⟨s, hv, hor⟩ := solve_cases hr
  have : r.x = s.x := by rcases hor with ⟨-, rfl⟩ | ⟨-, -, rfl⟩ <;> rfl
  rw [this, (hvis hv).1]

/-- `x = 0` with the multiplier `5` is stationary for the example problem. -/
example : Coherent (demoProblem 0) ∧ Stationary (demoProblem 0) demoBounds (fun _ => 0) (Sum.elim (fun _ => 5) fun _ => 0) := by
  refine ⟨fun x => ⟨fun i => rfl, fun i => i.elim0⟩, ?_, ⟨fun i => ?_, fun i => i.elim0, fun i => ?_⟩, fun i => i.elim0,
    fun i => ⟨fun h => absurd h (lt_irrefl _), fun h => absurd h (lt_irrefl _)⟩⟩
  · funext i
    simp only [demoProblem, Matrix.mulVec, dotProduct, Pi.add_apply, Finset.univ_unique, Finset.sum_singleton,
      Finset.univ_eq_empty, Finset.sum_empty, Matrix.transpose_apply, Matrix.submatrix_apply, Pi.zero_apply, Sum.elim_inl,
      Sum.elim_inr]
    norm_num
  · simp [demoProblem]
  · simp [demoBounds]

/-! ## C67 -/

/-- A multiplier in the normal cone of a shifted interval, times the step, is at least minus its size times the
violation. -/
theorem cone_term {lo up z d y M : K} (hp : 0 < y → d = up - z) (hn : y < 0 → d = lo - z)
    (hM : |y| ≤ M) : -(M * outside lo up z) ≤ d * y := by
  have hM0 : 0 ≤ M := (abs_nonneg y).trans hM
  have ha : 0 ≤ max (lo - z) 0 := le_max_right _ _
  have hb : 0 ≤ max (z - up) 0 := le_max_right _ _
  have ha' : lo - z ≤ max (lo - z) 0 := le_max_left _ _
  have hb' : z - up ≤ max (z - up) 0 := le_max_left _ _
  unfold outside
  rcases lt_trichotomy y 0 with hy | hy | hy
  · rw [hn hy]
    rw [abs_of_neg hy] at hM
    have : (lo - z) * (-y) ≤ max (lo - z) 0 * M :=
      (mul_le_mul_of_nonneg_right ha' (by linarith)).trans (mul_le_mul_of_nonneg_left hM ha)
    nlinarith [mul_nonneg hM0 hb]
  · rw [hy]; nlinarith [mul_nonneg hM0 ha, mul_nonneg hM0 hb]
  · rw [hp hy]
    rw [abs_of_pos hy] at hM
    have : (z - up) * y ≤ max (z - up) 0 * M :=
      (mul_le_mul_of_nonneg_right hb' hy.le).trans (mul_le_mul_of_nonneg_left hM hb)
    nlinarith [mul_nonneg hM0 ha]

/-- C67: for an optimal pair of the QP the slope of the `l1` merit function with the largest multiplier as penalty is at
most `-pᵀHp`. -/
theorem slope_le {bd : Bounds K n mi} {x : Fin n → K} {H : Matrix (Fin n) (Fin n) K} {h : Fin n → K}
    {A : Matrix (Fin (me + mi)) (Fin n) K} {b : Fin (me + mi) → K} {p : Fin n → K} {y : Dual K n me mi}
    (hk : (formQP bd x H h A b).KKT p y) :
    h ⬝ᵥ p - infNorm y * l1Violation (fun i => b (Fin.castAdd mi i)) (fun i => b (Fin.natAdd me i)) bd.lbg bd.ubg
      x bd.lbx bd.ubx ≤ -(p ⬝ᵥ H *ᵥ p) := by
  have h1 := kkt_dot hk p
  change p ⬝ᵥ H *ᵥ p + h ⬝ᵥ p + _ = 0 at h1
  suffices hs : -(infNorm y * l1Violation (fun i => b (Fin.castAdd mi i)) (fun i => b (Fin.natAdd me i)) bd.lbg bd.ubg
      x bd.lbx bd.ubx) ≤ ∑ i, (formQP bd x H h A b).rows p i * y i by linarith
  rw [Fintype.sum_sum_type, Fin.sum_univ_add]
  have hcone := hk.2
  have t1 : -(infNorm y * ∑ i, |b (Fin.castAdd mi i)|) ≤ ∑ i : Fin me,
      (formQP bd x H h A b).rows p (Sum.inl (Fin.castAdd mi i)) * y (Sum.inl (Fin.castAdd mi i)) := by
    rw [Finset.mul_sum, ← Finset.sum_neg_distrib]
    refine Finset.sum_le_sum fun i _ => ?_
    obtain ⟨⟨a1, a2⟩, -, -⟩ := hcone (Sum.inl (Fin.castAdd mi i))
    simp only [QP.lower, QP.upper, Sum.elim_inl, formQP, Fin.addCases_left] at a1 a2
    have e : (formQP bd x H h A b).rows p (Sum.inl (Fin.castAdd mi i)) = -b (Fin.castAdd mi i) := le_antisymm a2 a1
    rw [e, neg_mul, neg_le_neg_iff]
    refine (le_abs_self _).trans ?_
    rw [abs_mul, mul_comm]
    exact mul_le_mul_of_nonneg_right (le_infNorm y _) (abs_nonneg _)
  have t2 : -(infNorm y * ∑ i, outside (bd.lbg i) (bd.ubg i) (b (Fin.natAdd me i))) ≤ ∑ i : Fin mi,
      (formQP bd x H h A b).rows p (Sum.inl (Fin.natAdd me i)) * y (Sum.inl (Fin.natAdd me i)) := by
    rw [Finset.mul_sum, ← Finset.sum_neg_distrib]
    refine Finset.sum_le_sum fun i _ => ?_
    obtain ⟨⟨a1, a2⟩, a3, a4⟩ := hcone (Sum.inl (Fin.natAdd me i))
    have el : (formQP bd x H h A b).lower (Sum.inl (Fin.natAdd me i)) = -b (Fin.natAdd me i) + bd.lbg i := by
      simp [QP.lower, formQP]
    have eu : (formQP bd x H h A b).upper (Sum.inl (Fin.natAdd me i)) = -b (Fin.natAdd me i) + bd.ubg i := by
      simp [QP.upper, formQP]
    rw [el] at a1 a4
    rw [eu] at a2 a3
    refine cone_term (fun hp => ?_) (fun hp => ?_) (le_infNorm y _)
    · rw [a3 hp]; ring
    · rw [a4 hp]; ring
  have t3 : -(infNorm y * ∑ i, outside (bd.lbx i) (bd.ubx i) (x i)) ≤ ∑ i : Fin n,
      (formQP bd x H h A b).rows p (Sum.inr i) * y (Sum.inr i) := by
    rw [Finset.mul_sum, ← Finset.sum_neg_distrib]
    refine Finset.sum_le_sum fun i _ => ?_
    obtain ⟨-, a3, a4⟩ := hcone (Sum.inr i)
    exact cone_term a3 a4 (le_infNorm y _)
  unfold l1Violation
  linarith

/-- C67: unless all trials of the line search fail, the accepted step decreases the merit function by at least
`α η (pᵀHp + μ ε)`, where `(p, λ)` is an optimal pair of the QP at `x` and `μ` the largest multiplier. -/
theorem accepted_step_decreases_merit {eps : K} {cfg : Settings K} (heta : 0 ≤ cfg.eta) (htau : 0 < cfg.tau)
    {prob : Problem K n me mi} (hc : Coherent prob) {bd : Bounds K n mi} {x p : Fin n → K}
    {H : Matrix (Fin n) (Fin n) K} {lamK : Dual K n me mi}
    (hk : (formQP bd x H (prob.costGrad x) (prob.jac x) (prob.constr x)).KKT p lamK) (logged : K) {α : K}
    (hα : α = (lineSearch eps cfg prob bd (prob.costGrad x) lamK x p logged).1)
    (hacc : cfg.tau < 1 ∧ cfg.tau ^ (cfg.lineSearchMaxIter - 1).toNat < α) :
    merit eps (infNorm lamK) prob bd (fun i => x i + α * p i) ≤
      merit eps (infNorm lamK) prob bd x - α * cfg.eta * (p ⬝ᵥ H *ᵥ p + infNorm lamK * eps) := by
  obtain ⟨k, -, h1, h2, -⟩ := lineSearch_spec eps cfg prob bd (prob.costGrad x) lamK x p logged
  rw [← hα] at h1
  have hk' : (k : ℤ) < cfg.lineSearchMaxIter - 1 := by
    have : k < (cfg.lineSearchMaxIter - 1).toNat := by
      by_contra hge
      have := pow_le_pow_of_le_one htau.le hacc.1.le (not_lt.mp hge)
      rw [h1] at hacc
      exact absurd hacc.2 (not_lt.mpr this)
    omega
  have harm := h2 hk'
  rw [← h1] at harm
  unfold Armijo at harm
  have hs := slope_le hk
  have e1 : (fun i => prob.constr x (Fin.castAdd mi i)) = prob.eq x := funext (hc x).1
  have e2 : (fun i => prob.constr x (Fin.natAdd me i)) = prob.ineq x := funext (hc x).2
  rw [e1, e2] at hs
  have hα0 : 0 ≤ α := by rw [h1]; exact (pow_pos htau k).le
  have := mul_le_mul_of_nonneg_left hs (mul_nonneg hα0 heta)
  linarith

/-! ## C68 -/

section Real

theorem outside_convex {lo up z d : ℝ} (h1 : lo ≤ z + d) (h2 : z + d ≤ up) {t e : ℝ} (ht0 : 0 ≤ t) (ht1 : t ≤ 1) :
    outside lo up (z + t * d + e) ≤ (1 - t) * outside lo up z + 2 * |e| := by
  have ha : 0 ≤ max (lo - z) 0 := le_max_right _ _
  have hb : 0 ≤ max (z - up) 0 := le_max_right _ _
  have ha' : lo - z ≤ max (lo - z) 0 := le_max_left _ _
  have hb' : z - up ≤ max (z - up) 0 := le_max_left _ _
  have e1 := le_abs_self e
  have e2 := neg_abs_le e
  have e3 := abs_nonneg e
  have t1 : 0 ≤ 1 - t := by linarith
  have m1 := mul_le_mul_of_nonneg_left ha' t1
  have m2 := mul_le_mul_of_nonneg_left hb' t1
  have m3 := mul_nonneg t1 ha
  have m4 := mul_nonneg t1 hb
  have m5 := mul_le_mul_of_nonneg_left h1 ht0
  have m6 := mul_le_mul_of_nonneg_left h2 ht0
  have k1 : max (lo - (z + t * d + e)) 0 ≤ (1 - t) * max (lo - z) 0 + |e| := max_le (by nlinarith) (by linarith)
  have k2 : max (z + t * d + e - up) 0 ≤ (1 - t) * max (z - up) 0 + |e| := max_le (by nlinarith) (by linarith)
  unfold outside
  linarith

theorem abs_linear {c d t e : ℝ} (h : c + d = 0) (ht1 : t ≤ 1) : |c + t * d + e| ≤ (1 - t) * |c| + |e| := by
  have : c + t * d + e = (1 - t) * c + e := by linear_combination t * h
  rw [this]
  refine (abs_add_le _ _).trans ?_
  rw [abs_mul, abs_of_nonneg (by linarith : (0 : ℝ) ≤ 1 - t)]

/-- The remainder of the first-order expansion along a line. -/
noncomputable def remainder (f : (Fin n → ℝ) → ℝ) (f' : ℝ) (x p : Fin n → ℝ) (t : ℝ) : ℝ :=
  f (fun i => x i + t * p i) - f x - t * f'

theorem remainder_isLittleO {f : (Fin n → ℝ) → ℝ} {f' : ℝ} {x p : Fin n → ℝ} (h : HasLineDerivAt ℝ f f' x p) :
    (remainder f f' x p) =o[nhds 0] fun t : ℝ => t := by
  have h1 := hasDerivAt_iff_isLittleO.mp (h : HasDerivAt (fun t : ℝ => f (x + t • p)) f' 0)
  simp only [zero_smul, add_zero, sub_zero, smul_eq_mul] at h1
  exact h1

/-- C68: let the cost and the constraints be differentiable at `x` along `p` with the derivatives returned by the problem,
and let `(p, λ)` be an optimal pair of the QP at `x`. If `η μ ε < (1 - η) pᵀHp`, where `μ` is the largest multiplier and `ε`
the machine epsilon added to the violation, then all sufficiently small steps are accepted by the line search. -/
theorem small_steps_accepted {eps : ℝ} {cfg : Settings ℝ} {prob : Problem ℝ n me mi} {bd : Bounds ℝ n mi}
    {x p : Fin n → ℝ} {H : Matrix (Fin n) (Fin n) ℝ} {lamK : Dual ℝ n me mi}
    (hc : Coherent prob)
    (hcost : HasLineDerivAt ℝ prob.cost (prob.costGrad x ⬝ᵥ p) x p)
    (heq : ∀ i, HasLineDerivAt ℝ (fun z => prob.eq z i) ((eqRows (prob.jac x) *ᵥ p) i) x p)
    (hineq : ∀ i, HasLineDerivAt ℝ (fun z => prob.ineq z i) ((ineqRows (prob.jac x) *ᵥ p) i) x p)
    (hk : (formQP bd x H (prob.costGrad x) (prob.jac x) (prob.constr x)).KKT p lamK)
    (heta1 : cfg.eta ≤ 1)
    (hgap : cfg.eta * infNorm lamK * eps < (1 - cfg.eta) * (p ⬝ᵥ H *ᵥ p)) :
    ∃ a > 0, ∀ t, 0 < t → t ≤ a →
      Armijo cfg.eta (prob.costGrad x ⬝ᵥ p - infNorm lamK *
          (eps + l1Violation (prob.eq x) (prob.ineq x) bd.lbg bd.ubg x bd.lbx bd.ubx))
        (merit eps (infNorm lamK) prob bd) x p t := by
  set mu := infNorm lamK with hmu
  have hmu0 : 0 ≤ mu := infNorm_nonneg _
  set v := l1Violation (prob.eq x) (prob.ineq x) bd.lbg bd.ubg x bd.lbx bd.ubx with hv
  have e1 : (fun i => prob.constr x (Fin.castAdd mi i)) = prob.eq x := funext (hc x).1
  have e2 : (fun i => prob.constr x (Fin.natAdd me i)) = prob.ineq x := funext (hc x).2
  have hslope := slope_le hk
  rw [e1, e2, ← hmu, ← hv] at hslope
  have hfeas := (formQP_feasible_iff bd x H (prob.costGrad x) (prob.jac x) (prob.constr x) p).mp
    ((QP.feasible_iff _ _).mpr fun i => (hk.2 i).1)
  rw [e1, e2] at hfeas
  obtain ⟨f1, f2, f3⟩ := hfeas
  set rf := remainder prob.cost (prob.costGrad x ⬝ᵥ p) x p
  set re : Fin me → ℝ → ℝ := fun i => remainder (fun z => prob.eq z i) ((eqRows (prob.jac x) *ᵥ p) i) x p
  set ri : Fin mi → ℝ → ℝ := fun i => remainder (fun z => prob.ineq z i) ((ineqRows (prob.jac x) *ᵥ p) i) x p
  set R : ℝ → ℝ := fun t => |rf t| + mu * (∑ i, |re i t| + ∑ i, 2 * |ri i t|) with hR
  have hRo : R =o[nhds 0] fun t : ℝ => t := by
    refine (remainder_isLittleO hcost).abs_left.add (Asymptotics.IsLittleO.const_mul_left ?_ _)
    refine (Asymptotics.IsLittleO.fun_sum fun i _ => (remainder_isLittleO (heq i)).abs_left).add
      (Asymptotics.IsLittleO.fun_sum fun i _ => ((remainder_isLittleO (hineq i)).abs_left).const_mul_left _)
  have bound : ∀ t, 0 < t → t ≤ 1 → merit eps mu prob bd (fun i => x i + t * p i) ≤
      merit eps mu prob bd x + t * (prob.costGrad x ⬝ᵥ p - mu * v) + R t := by
    intro t ht0 ht1
    have b1 : prob.cost (fun i => x i + t * p i) ≤ prob.cost x + t * (prob.costGrad x ⬝ᵥ p) + |rf t| := by
      have : rf t = prob.cost (fun i => x i + t * p i) - prob.cost x - t * (prob.costGrad x ⬝ᵥ p) := rfl
      linarith [le_abs_self (rf t)]
    have b2 : ∑ i, |prob.eq (fun i => x i + t * p i) i| ≤ (1 - t) * ∑ i, |prob.eq x i| + ∑ i, |re i t| := by
      rw [Finset.mul_sum, ← Finset.sum_add_distrib]
      refine Finset.sum_le_sum fun i _ => ?_
      have : prob.eq (fun i => x i + t * p i) i = prob.eq x i + t * (eqRows (prob.jac x) *ᵥ p) i + re i t := by
        simp only [re, remainder]; ring
      rw [this]
      exact abs_linear (f1 i) ht1
    have b3 : ∑ i, outside (bd.lbg i) (bd.ubg i) (prob.ineq (fun i => x i + t * p i) i) ≤
        (1 - t) * ∑ i, outside (bd.lbg i) (bd.ubg i) (prob.ineq x i) + ∑ i, 2 * |ri i t| := by
      rw [Finset.mul_sum, ← Finset.sum_add_distrib]
      refine Finset.sum_le_sum fun i _ => ?_
      have : prob.ineq (fun i => x i + t * p i) i = prob.ineq x i + t * (ineqRows (prob.jac x) *ᵥ p) i + ri i t := by
        simp only [ri, remainder]; ring
      rw [this]
      exact outside_convex (f2 i).1 (f2 i).2 ht0.le ht1
    have b4 : ∑ i, outside (bd.lbx i) (bd.ubx i) (x i + t * p i) ≤
        (1 - t) * ∑ i, outside (bd.lbx i) (bd.ubx i) (x i) := by
      rw [Finset.mul_sum]
      refine Finset.sum_le_sum fun i _ => ?_
      have := outside_convex (e := 0) (f3 i).1 (f3 i).2 ht0.le ht1
      simpa using this
    have b5 : l1Violation (prob.eq fun i => x i + t * p i) (prob.ineq fun i => x i + t * p i) bd.lbg bd.ubg
        (fun i => x i + t * p i) bd.lbx bd.ubx ≤ (1 - t) * v + (∑ i, |re i t| + ∑ i, 2 * |ri i t|) := by
      rw [hv]
      unfold l1Violation
      linarith
    have b6 := mul_le_mul_of_nonneg_left b5 hmu0
    unfold merit
    rw [← hv, hR]
    simp only
    nlinarith
  set gap := (1 - cfg.eta) * (p ⬝ᵥ H *ᵥ p) - cfg.eta * mu * eps with hgapd
  have hgap0 : 0 < gap := by rw [hgapd]; linarith
  have hev := hRo.def hgap0
  rw [Metric.eventually_nhds_iff] at hev
  obtain ⟨r, hr0, hr⟩ := hev
  refine ⟨min 1 (r / 2), lt_min one_pos (by linarith), fun t ht0 hta => ?_⟩
  have ht1 : t ≤ 1 := hta.trans (min_le_left _ _)
  have htr : t ≤ r / 2 := hta.trans (min_le_right _ _)
  have hRt := hr (y := t) (by rw [Real.dist_eq, sub_zero, abs_of_pos ht0]; linarith)
  rw [Real.norm_eq_abs, Real.norm_eq_abs, abs_of_pos ht0] at hRt
  have hRt' : R t ≤ gap * t := (le_abs_self _).trans hRt
  have hb := bound t ht0 ht1
  unfold Armijo
  have k1 : (1 - cfg.eta) * (prob.costGrad x ⬝ᵥ p - mu * v) ≤ (1 - cfg.eta) * -(p ⬝ᵥ H *ᵥ p) :=
    mul_le_mul_of_nonneg_left hslope (by linarith)
  have k2 := mul_le_mul_of_nonneg_left k1 ht0.le
  nlinarith

/-- C68: under these assumptions the line search accepts a step, provided `line_search_max_iter` is large enough. -/
theorem lineSearch_succeeds {eps : ℝ} {cfg : Settings ℝ} {prob : Problem ℝ n me mi} {bd : Bounds ℝ n mi}
    {x p : Fin n → ℝ} {H : Matrix (Fin n) (Fin n) ℝ} {lamK : Dual ℝ n me mi}
    (hc : Coherent prob)
    (hcost : HasLineDerivAt ℝ prob.cost (prob.costGrad x ⬝ᵥ p) x p)
    (heq : ∀ i, HasLineDerivAt ℝ (fun z => prob.eq z i) ((eqRows (prob.jac x) *ᵥ p) i) x p)
    (hineq : ∀ i, HasLineDerivAt ℝ (fun z => prob.ineq z i) ((ineqRows (prob.jac x) *ᵥ p) i) x p)
    (hk : (formQP bd x H (prob.costGrad x) (prob.jac x) (prob.constr x)).KKT p lamK)
    (heta1 : cfg.eta ≤ 1) (htau0 : 0 < cfg.tau) (htau1 : cfg.tau < 1)
    (hgap : cfg.eta * infNorm lamK * eps < (1 - cfg.eta) * (p ⬝ᵥ H *ᵥ p)) :
    ∃ N : ℕ, ∀ ls : ℤ, (N : ℤ) + 1 < ls → ∀ logged,
      Armijo cfg.eta (prob.costGrad x ⬝ᵥ p - infNorm lamK *
          (eps + l1Violation (prob.eq x) (prob.ineq x) bd.lbg bd.ubg x bd.lbx bd.ubx))
        (merit eps (infNorm lamK) prob bd) x p
        (lineSearch eps { cfg with lineSearchMaxIter := ls } prob bd (prob.costGrad x) lamK x p logged).1 ∧
      cfg.tau ^ N ≤
        (lineSearch eps { cfg with lineSearchMaxIter := ls } prob bd (prob.costGrad x) lamK x p logged).1 := by
  obtain ⟨a, ha, hacc⟩ := small_steps_accepted hc hcost heq hineq hk heta1 hgap
  obtain ⟨N, hN⟩ := exists_pow_lt_of_lt_one ha htau1
  refine ⟨N, fun ls hls logged => ?_⟩
  obtain ⟨k, -, h1, h2, h3⟩ := lineSearch_spec eps { cfg with lineSearchMaxIter := ls } prob bd (prob.costGrad x) lamK x p
    logged
  have hkN : k ≤ N := by
    by_contra hlt
    exact h3 N (not_le.mp hlt) (hacc _ (pow_pos htau0 N) hN.le)
  rw [h1]
  exact ⟨h2 (by simp only; omega), pow_le_pow_of_le_one htau0.le htau1.le hkN⟩

/-- The assumptions of C68 hold for the cost `x²/2` with `-10 ≤ x ≤ 10` at `x = 1`, where the step is `-1`. -/
example : ∃ (prob : Problem ℝ 1 0 0) (bd : Bounds ℝ 1 0) (x p : Fin 1 → ℝ) (H : Matrix (Fin 1) (Fin 1) ℝ)
    (lamK : Dual ℝ 1 0 0), Coherent prob ∧ HasLineDerivAt ℝ prob.cost (prob.costGrad x ⬝ᵥ p) x p ∧
    (formQP bd x H (prob.costGrad x) (prob.jac x) (prob.constr x)).KKT p lamK ∧
    1 / 4 * infNorm lamK * (1 / 10 ^ 15) < (1 - 1 / 4) * (p ⬝ᵥ H *ᵥ p) := by
  refine ⟨{ cost := fun x => x 0 ^ 2 / 2, eq := fun _ => Fin.elim0, ineq := fun _ => Fin.elim0, costGrad := fun x => x,
            constr := fun _ => Fin.elim0, jac := fun _ i => i.elim0, lagGrad := fun x _ => x, lagHess := fun _ _ => 1 },
    { lbx := fun _ => -10, ubx := fun _ => 10, lbg := Fin.elim0, ubg := Fin.elim0 }, fun _ => 1, fun _ => -1, 1, fun _ => 0,
    fun x => ⟨fun i => i.elim0, fun i => i.elim0⟩, ?_, ⟨?_, ?_⟩, ?_⟩
  · have : HasDerivAt (fun t : ℝ => (1 + t * (-1)) ^ 2 / 2) (1 * (-1)) 0 := by
      have h1 : HasDerivAt (fun t : ℝ => 1 + t * (-1)) (-1) 0 := by
        simpa using ((hasDerivAt_id (0 : ℝ)).mul_const (-1)).const_add 1
      have := (h1.pow 2).div_const 2
      simpa using this
    simpa [HasLineDerivAt, dotProduct] using this
  · funext i
    simp [QP.lagrangianGradient, formQP, QP.yBox]
  · rintro (i | i)
    · exact i.elim0
    · norm_num [QP.lower, QP.upper, QP.rows, formQP]
  · have : infNorm (fun _ => 0 : Dual ℝ 1 0 0) = 0 := by
      refine le_antisymm ((infNorm_le_iff _).mpr ⟨le_rfl, fun i => by simp⟩) (infNorm_nonneg _)
    rw [this]
    norm_num [dotProduct]

end Real

/-! ## C70 -/

theorem lineSearchLoop_logged (tau eta phi Dphi mu : K) (cost viol : (Fin n → K) → K) (x p : Fin n → K) (fuel : ℕ)
    (alpha c c' : K) : (lineSearchLoop tau eta phi Dphi mu cost viol x p fuel alpha c).1 =
      (lineSearchLoop tau eta phi Dphi mu cost viol x p fuel alpha c').1 := by
  cases fuel with
  | zero => rfl
  | succ k => rfl

/-- Two solver objects agree in everything observable except the logged cost, the state of the QP solver and of the
preconditioner, and earlier callbacks. -/
structure Agree (s s' : State K n me mi prec qps) : Prop where
  x : s.x = s'.x
  lam : s.lam = s'.lam
  lamK : s.lamK = s'.lamK
  qp : s.qp = s'.qp
  iter : s.iter = s'.iter
  qpIter : s.qpIter = s'.qpIter
  status : s.status = s'.status
  lagGradient : s.lagGradient = s'.lagGradient
  stepPrev : s.stepPrev = s'.stepPrev
  primalNorm : s.primalNorm = s'.primalNorm
  dualNorm : s.dualNorm = s'.dualNorm
  maxViolation : s.maxViolation = s'.maxViolation

/-- Neither the preconditioner nor the QP solver nor the step size selection depends on what happened before. -/
structure HistoryFree (env : Env K n me mi prec qps) : Prop where
  prec : ∀ m m' qp, prec.compute m qp = prec.compute m' qp
  qps : ∀ m m' qp, (qps.solve m qp).2 = (qps.solve m' qp).2
  step : ∀ h l x p c c', (env.stepSize h l x p c).1 = (env.stepSize h l x p c').1

theorem qpStep_agree [NeZero n] {env : Env K n me mi prec qps} (hf : HistoryFree env) {s s' r : State K n me mi prec qps}
    (hx : s.x = s'.x) (hl : s.lam = s'.lam) (hq : s.qp = s'.qp) (hi : s.iter = s'.iter) (hqi : s.qpIter = s'.qpIter)
    (hst : s.status = s'.status) (hlg : s.lagGradient = s'.lagGradient) (h : qpStep env s = some r) :
    ∃ r', qpStep env s' = some r' ∧ Agree (measure env r) (measure env r') := by
  unfold qpStep at h
  rw [Option.map_eq_some_iff] at h
  obtain ⟨⟨mem, scaled⟩, h1, rfl⟩ := h
  have h1' : prec.compute s'.precMem s'.qp = some (mem, scaled) := by rw [← h1, ← hq]; exact hf.prec _ _ _
  have hs := hf.qps s.qpMem s'.qpMem scaled
  refine ⟨_, by unfold qpStep; rw [h1']; rfl, ?_⟩
  have hα := hf.step (prec.unscale mem scaled).h
    (prec.unscalePair mem ((qps.solve s'.qpMem scaled).2.1, (qps.solve s'.qpMem scaled).2.2.1)).2 s'.x
    (prec.unscalePair mem ((qps.solve s'.qpMem scaled).2.1, (qps.solve s'.qpMem scaled).2.2.1)).1 s.cost s'.cost
  constructor <;> simp only [measure, hs, hx, hl, hi, hqi, hst, hlg, hα]

theorem pass_agree [NeZero n] {env : Env K n me mi prec qps} (hf : HistoryFree env) {s s' r : State K n me mi prec qps}
    (ha : Agree s s') (h : pass env s = some r) : ∃ r', pass env s' = some r' ∧ Agree r r' := by
  obtain ⟨s1, s2, h1, h2, rfl⟩ := pass_parts h
  obtain ⟨H, hH, hs1⟩ := updateLinearisation_spec h1
  simp only at hH
  rw [ha.qp, ha.stepPrev, ha.x, ha.lam, ha.lagGradient] at hH
  have hu : ∃ s1', updateLinearisation env { s' with iter := s'.iter + 1 } = some s1' ∧ s1.x = s1'.x ∧ s1.lam = s1'.lam ∧
      s1.qp = s1'.qp ∧ s1.iter = s1'.iter ∧ s1.qpIter = s1'.qpIter ∧ s1.status = s1'.status ∧
      s1.lagGradient = s1'.lagGradient := by
    unfold updateLinearisation
    simp only [hH, Option.map_some]
    refine ⟨_, rfl, ?_⟩
    rw [hs1]
    simp only [ha.x, ha.lam, ha.iter, ha.qpIter, ha.status, and_self]
  obtain ⟨s1', hs1', e1, e2, e3, e4, e5, e6, e7⟩ := hu
  obtain ⟨r', hr', hag⟩ := qpStep_agree hf e1 e2 e3 e4 e5 e6 e7 h2
  refine ⟨measure env (callback env r'), ?_, ?_⟩
  · unfold pass
    rw [hs1', Option.bind_some, hr', Option.map_some]
  · unfold callback
    by_cases hcb : env.cfg.callback = true
    · simp only [if_pos hcb]
      exact ⟨hag.x, hag.lam, hag.lamK, hag.qp, hag.iter, hag.qpIter, hag.status, hag.lagGradient, hag.stepPrev,
        hag.primalNorm, hag.dualNorm, hag.maxViolation⟩
    · simp only [if_neg hcb]
      exact hag

theorem terminated_agree {env : Env K n me mi prec qps} {s s' : State K n me mi prec qps} (ha : Agree s s') :
    terminated env s = terminated env s' := by
  unfold terminated
  rw [ha.primalNorm, ha.dualNorm, ha.maxViolation]

theorem loop_agree [NeZero n] {env : Env K n me mi prec qps} (hf : HistoryFree env) (fuel : ℕ)
    {s s' r : State K n me mi prec qps} (ha : Agree s s') (h : loop env fuel s = some r) :
    ∃ r', loop env fuel s' = some r' ∧ Agree r r' := by
  induction fuel generalizing s s' with
  | zero =>
    rw [loop] at h
    exact ⟨s', rfl, Option.some.inj h ▸ ha⟩
  | succ k ih =>
    rw [loop_succ] at h ⊢
    rw [← ha.iter]
    by_cases hlt : s.iter < env.cfg.maxIter
    · rw [if_pos hlt, Option.bind_eq_some_iff] at h
      rw [if_pos hlt]
      obtain ⟨t, ht, h2⟩ := h
      obtain ⟨t', ht', hag⟩ := pass_agree hf ha ht
      rw [ht', Option.bind_some, ← terminated_agree hag]
      by_cases hte : terminated env t = true
      · rw [if_pos hte] at h2 ⊢
        refine ⟨_, rfl, ?_⟩
        rw [← Option.some.inj h2]
        exact { hag with status := rfl }
      · rw [if_neg hte] at h2 ⊢
        exact ih hag h2
    · rw [if_neg hlt] at h ⊢
      exact ⟨s', rfl, Option.some.inj h ▸ ha⟩

/-- C70: two solver objects with the same primal and dual guess produce the same results (solution, multipliers, iteration
counts, status, last QP), whatever they have been used for before, provided the QP solver's results do not depend on its
history. -/
theorem solve_history_independent [NeZero n] {env : Env K n me mi prec qps} (hf : HistoryFree env)
    {st st' r : State K n me mi prec qps} (hx : st.x = st'.x) (hl : st.lam = st'.lam) (h : solve env st = some r) :
    ∃ r', solve env st' = some r' ∧ Agree r r' := by
  rw [solve_eq, Option.bind_eq_some_iff] at h
  obtain ⟨s, hs, h2⟩ := h
  unfold firstPass at hs
  rw [Option.map_eq_some_iff] at hs
  obtain ⟨q, hq, rfl⟩ := hs
  obtain ⟨q', hq', hag⟩ := qpStep_agree hf (s := linearise env (start st)) (s' := linearise env (start st')) (by exact hx) (by exact hl)
    (by simp only [linearise, start, hx, hl]) rfl rfl rfl (by simp only [linearise, start, hx, hl]) hq
  rw [solve_eq]
  have hf' : firstPass env st' = some (measure env q') := by rw [firstPass, hq']; rfl
  rw [hf', Option.bind_some, ← terminated_agree hag]
  by_cases hte : terminated env (measure env q) = true
  · rw [if_pos hte] at h2 ⊢
    refine ⟨_, rfl, ?_⟩
    rw [← Option.some.inj h2]
    exact { hag with status := rfl }
  · rw [if_neg hte] at h2 ⊢
    exact loop_agree hf _ hag h2

/-- C70 for the default solver with either preconditioner: only the QP solver matters. -/
theorem default_historyFree {eps : K} {cfg : Settings K} {prob : Problem K n me mi} {bd : Bounds K n mi}
    (hq : ∀ m m' qp, (qps.solve m qp).2 = (qps.solve m' qp).2) :
    HistoryFree (defaultEnv eps cfg prob bd : Env K n me mi (identityPrecond K n (me + mi)) qps) ∧
    ∀ [NeZero n] [NeZero (me + mi)] (var : Ruiz.Variant K n (me + mi)) (sq : K → K),
      HistoryFree (defaultEnv eps cfg prob bd : Env K n me mi (ruizPrecond var sq) qps) :=
  ⟨⟨fun _ _ _ => rfl, hq, fun _ _ _ _ _ _ => lineSearchLoop_logged ..⟩,
    fun _ _ => ⟨fun _ _ _ => rfl, hq, fun _ _ _ _ _ _ => lineSearchLoop_logged ..⟩⟩

/-- The QP solver of the examples is independent of its history; two objects in different states give the same result. -/
example : HistoryFree (demoEnv Settings.default 0) ∧
    ((solve (demoEnv Settings.default 0) (demoState 3 1)).map fun r => [r.x 0, r.lam (Sum.inl 0), r.iter]) =
    ((solve (demoEnv Settings.default 0) { demoState 3 1 with cost := 17, iter := 9, stepPrev := fun _ => 4 }).map
      fun r => [r.x 0, r.lam (Sum.inl 0), r.iter]) :=
  ⟨(default_historyFree fun _ _ _ => rfl).1, by decide +kernel⟩

/-! ## C71 -/

/-- C71: for a zero step the sufficient decrease condition fails for every trial as soon as there is a nonzero multiplier:
the machine epsilon added to the violation makes the predicted slope negative. The line search then returns its smallest
step `tau ^ (line_search_max_iter - 1)`. -/
theorem zero_step_exhausts {eps : K} (heps : 0 < eps) {cfg : Settings K} (heta : 0 < cfg.eta) (htau : 0 < cfg.tau)
    (prob : Problem K n me mi) (bd : Bounds K n mi) (h : Fin n → K) {lamK : Dual K n me mi} (hlam : lamK ≠ 0)
    (x : Fin n → K) (logged : K) :
    (lineSearch eps cfg prob bd h lamK x 0 logged).1 = cfg.tau ^ (cfg.lineSearchMaxIter - 1).toNat := by
  obtain ⟨k, h0, h1, h2, -⟩ := lineSearch_spec eps cfg prob bd h lamK x 0 logged
  have hmu : 0 < infNorm lamK := by
    obtain ⟨i, hi⟩ := Function.ne_iff.mp hlam
    exact lt_of_lt_of_le (abs_pos.mpr hi) (le_infNorm lamK i)
  have hno : ¬ (k : ℤ) < cfg.lineSearchMaxIter - 1 := by
    intro hlt
    have := h2 hlt
    unfold Armijo at this
    simp only [dotProduct_zero, Pi.zero_apply, mul_zero, add_zero, zero_sub] at this
    have hv := l1Violation_nonneg (prob.eq x) (prob.ineq x) bd.lbg bd.ubg x bd.lbx bd.ubx
    have hpos : 0 < cfg.tau ^ k * cfg.eta * (infNorm lamK *
        (eps + l1Violation (prob.eq x) (prob.ineq x) bd.lbg bd.ubg x bd.lbx bd.ubx)) :=
      mul_pos (mul_pos (pow_pos htau k) heta) (mul_pos hmu (by linarith))
    change merit eps (infNorm lamK) prob bd x ≤ _ at this
    linarith
  rw [h1]
  congr 1
  rcases lt_max_iff.mp h0 with h | h <;> omega

/-- `minimise ½x² - 5x` subject to `x = 0`: the solution is `x = 0` with multiplier `5`. -/
def wrongProblem : Problem ℚ 1 1 0 where
  cost x := x 0 ^ 2 / 2 - 5 * x 0
  eq x := fun _ => x 0
  ineq _ := Fin.elim0
  costGrad x := fun _ => x 0 - 5
  constr x := fun _ => x 0
  jac _ := Matrix.of fun _ _ => 1
  lagGrad x l := fun _ => x 0 - 5 + l (Sum.inl 0) + l (Sum.inr 0)
  lagHess _ _ := Matrix.of fun _ _ => 1

/-- The QP solver of the examples solves the QPs of this problem exactly. -/
theorem demoQPS_exact (m : demoQPS.Mem) {x : Fin 1 → ℚ} (H : Matrix (Fin 1) (Fin 1) ℚ) :
    (formQP demoBounds x H (wrongProblem.costGrad x) (wrongProblem.jac x) (wrongProblem.constr x)).KKT
      (demoQPS.solve m (formQP demoBounds x H (wrongProblem.costGrad x) (wrongProblem.jac x) (wrongProblem.constr x))).2.1
      (demoQPS.solve m (formQP demoBounds x H (wrongProblem.costGrad x) (wrongProblem.jac x) (wrongProblem.constr x))).2.2.1 := by
  refine ⟨?_, ?_⟩
  · funext i
    simp only [QP.lagrangianGradient, formQP, wrongProblem, demoQPS, QP.yA, QP.yBox, Matrix.mulVec, dotProduct,
      Finset.univ_unique, Finset.sum_singleton, Pi.add_apply, Matrix.transpose_apply, Matrix.of_apply, Sum.elim_inl,
      Sum.elim_inr, Pi.zero_apply, Fin.isValue, Subsingleton.elim i 0, div_one, one_mul, add_zero, Fin.default_eq_zero,
      Finset.sum_const, Finset.card_univ, Fintype.card_fin, one_smul]
    ring
  · have hA : (formQP demoBounds x H (wrongProblem.costGrad x) (wrongProblem.jac x) (wrongProblem.constr x)).Alb 0 = -x 0 :=
      rfl
    have hp : (demoQPS.solve m (formQP demoBounds x H (wrongProblem.costGrad x) (wrongProblem.jac x)
        (wrongProblem.constr x))).2.1 = fun _ => -x 0 := by
      funext i
      simp only [demoQPS, hA]
      simp [formQP, wrongProblem]
    rw [hp]
    rintro (i | i)
    · have hi : i = 0 := Fin.ext (by have := i.2; simp)
      have e1 : (formQP demoBounds x H (wrongProblem.costGrad x) (wrongProblem.jac x) (wrongProblem.constr x)).rows
          (fun _ => -x 0) (Sum.inl i) = -x 0 := by
        simp [QP.rows, formQP, wrongProblem, Matrix.mulVec, dotProduct]
      have e2 : (formQP demoBounds x H (wrongProblem.costGrad x) (wrongProblem.jac x) (wrongProblem.constr x)).lower
          (Sum.inl i) = -x 0 := by rw [hi]; rfl
      have e3 : (formQP demoBounds x H (wrongProblem.costGrad x) (wrongProblem.jac x) (wrongProblem.constr x)).upper
          (Sum.inl i) = -x 0 := by rw [hi]; rfl
      rw [e1, e2, e3]
      exact ⟨⟨le_rfl, le_rfl⟩, fun _ => rfl, fun _ => rfl⟩
    · rw [Subsingleton.elim i 0]
      refine ⟨⟨?_, ?_⟩, fun h => absurd h (lt_irrefl _), fun h => absurd h (lt_irrefl _)⟩
      · simp [QP.lower, QP.rows, formQP, demoBounds]
      · simp [QP.upper, QP.rows, formQP, demoBounds]

/-- C71: `SOLVED` does not certify the returned multipliers. With the default settings, double precision `ε`, an exact QP
solver and the solution as starting point, `solve` reports `SOLVED` after one iteration at the solution `x = 0`, but the
returned multiplier is practically `0` instead of `5` and the gradient of the Lagrangian is practically `-5`. -/
theorem solved_with_wrong_multiplier :
    ∃ r, solve (defaultEnv (1 / 2 ^ 52) Settings.default wrongProblem demoBounds :
        Env ℚ 1 1 0 (identityPrecond ℚ 1 (1 + 0)) demoQPS) (demoState 0 0) = some r ∧
      r.status = .SOLVED ∧ r.iter = 1 ∧ r.x 0 = 0 ∧ r.lam (Sum.inl 0) = 5 / 2 ^ 99 ∧ r.lam (Sum.inr 0) = 0 ∧
      wrongProblem.lagGrad r.x r.lam 0 < -49 / 10 ∧
      Stationary wrongProblem demoBounds r.x (Sum.elim (fun _ => 5) fun _ => 0) := by
  obtain ⟨r, hr⟩ : ∃ r, solve (defaultEnv (1 / 2 ^ 52) Settings.default wrongProblem demoBounds :
        Env ℚ 1 1 0 (identityPrecond ℚ 1 (1 + 0)) demoQPS) (demoState 0 0) = some r :=
    Option.isSome_iff_exists.mp (by decide +kernel)
  have hall : ((solve (defaultEnv (1 / 2 ^ 52) Settings.default wrongProblem demoBounds :
        Env ℚ 1 1 0 (identityPrecond ℚ 1 (1 + 0)) demoQPS) (demoState 0 0)).map fun r =>
      decide (r.status = .SOLVED ∧ r.iter = 1 ∧ r.x 0 = 0 ∧ r.lam (Sum.inl 0) = 5 / 2 ^ 99 ∧ r.lam (Sum.inr 0) = 0 ∧
        wrongProblem.lagGrad r.x r.lam 0 < -49 / 10)) = some true := by decide +kernel
  rw [hr, Option.map_some, Option.some.injEq, decide_eq_true_eq] at hall
  obtain ⟨h1, h2, h3, h4, h5, h6⟩ := hall
  refine ⟨r, hr, h1, h2, h3, h4, h5, h6, ?_⟩
  have hx : r.x = fun _ => 0 := funext fun i => by rw [Subsingleton.elim i 0, h3]
  rw [hx]
  refine ⟨?_, ⟨fun i => rfl, fun i => i.elim0, fun i => ?_⟩, fun i => i.elim0,
    fun i => ⟨fun h => absurd h (lt_irrefl _), fun h => absurd h (lt_irrefl _)⟩⟩
  · funext i
    simp only [wrongProblem, Matrix.mulVec, dotProduct, Pi.add_apply, Finset.univ_unique, Finset.sum_singleton,
      Finset.univ_eq_empty, Finset.sum_empty, Matrix.transpose_apply, Matrix.submatrix_apply, Matrix.of_apply, Pi.zero_apply,
      Sum.elim_inl, Sum.elim_inr]
    norm_num
  · simp [demoBounds]

/-! ## C72 -/

/-- C72: if `solve` reports `SOLVED` and the QPs were solved exactly, then at the iterate `x0` from which the last
iteration started the gradient of the Lagrangian for the multipliers `λ` of the last QP satisfies
`α |∇L(x0, λ)| ≤ ‖H‖ eps_prim` in every component, where `α` is the last step size and `H` the Hessian of the last QP; and
`λ` satisfies the sign and complementarity conditions with respect to the linearised constraints. -/
theorem solved_near_stationary [NeZero n] {env : Env K n me mi prec qps} (hl : LawfulPrecond prec) (hex : ExactQP qps)
    (hu : KeepsSPD env) (hα : ∀ h l x p c, 0 ≤ (env.stepSize h l x p c).1) {st r : State K n me mi prec qps}
    (h0 : SPD (env.regularise (env.prob.lagHess st.x st.lam)))
    (hfeas : ∀ x H, SPD H → ∃ p y,
      (formQP env.bd x H (env.prob.costGrad x) (env.prob.jac x) (env.prob.constr x)).KKT p y)
    (h : solve env st = some r) (hs : r.status = .SOLVED) :
    ∃ x0 lam0 H p α, From env st r x0 lam0 ∧ SPD H ∧ 0 ≤ α ∧ r.x = (fun i => x0 i + α * p i) ∧
      r.lam = (fun i => lam0 i + α * (r.lamK i - lam0 i)) ∧
      (formQP env.bd x0 H (env.prob.costGrad x0) (env.prob.jac x0) (env.prob.constr x0)).KKT p r.lamK ∧
      ∀ i, α * |(env.prob.costGrad x0 + (eqRows (env.prob.jac x0))ᵀ *ᵥ lamE r.lamK +
        (ineqRows (env.prob.jac x0))ᵀ *ᵥ lamI r.lamK + lamX r.lamK) i| ≤ (∑ j, |H i j|) * env.cfg.epsPrim := by
  obtain ⟨n1, -, -⟩ := (solve_control_flow h).2.2.1.mp hs
  obtain ⟨s, hv, hor⟩ := solve_cases h
  have hrs : r.x = s.x ∧ r.lam = s.lam ∧ r.lamK = s.lamK ∧ r.primalNorm = s.primalNorm ∧ r.iter = s.iter := by
    rcases hor with ⟨-, rfl⟩ | ⟨-, -, rfl⟩ <;> exact ⟨rfl, rfl, rfl, rfl, rfl⟩
  obtain ⟨r1, r2, r3, r4, r5⟩ := hrs
  obtain ⟨q, s2, H, hf, hH, hqp, hq, e1, e2, e3, e4, -⟩ := visited_step_spd hl hu h0 hv
  have hHq : SPD q.qp.H := by rw [hqp]; exact hH
  obtain ⟨p, hk, -, hx, -, hlam, hpn⟩ := qpStep_exact hl hex hq hHq (by rw [hqp]; exact hfeas q.x H hH)
  set α := (env.stepSize q.qp.h s2.lamK q.x p q.cost).1 with hαd
  have hα0 : 0 ≤ α := hα _ _ _ _ _
  rw [r3, e3]
  rw [hqp] at hk
  refine ⟨q.x, q.lam, H, p, α, ?_, hH, hα0, by rw [r1, e1, hx], by rw [r2, e2, hlam], hk, fun i => ?_⟩
  · unfold From at hf ⊢; rwa [r5]
  · have hst := congrFun hk.1 i
    have hg : (env.prob.costGrad q.x + (eqRows (env.prob.jac q.x))ᵀ *ᵥ lamE s2.lamK +
        (ineqRows (env.prob.jac q.x))ᵀ *ᵥ lamI s2.lamK + lamX s2.lamK) i = -(H *ᵥ p) i := by
      have hsp := congrFun (split_transpose (env.prob.jac q.x) s2.lamK) i
      simp only [QP.lagrangianGradient, formQP, Pi.add_apply, Pi.zero_apply, QP.yBox] at hst hsp ⊢
      rw [hsp] at hst
      linear_combination hst
    rw [hg, abs_neg]
    have hb : |(H *ᵥ p) i| ≤ (∑ j, |H i j|) * infNorm p := by
      rw [Finset.sum_mul]
      change |∑ j, H i j * p j| ≤ _
      refine (Finset.abs_sum_le_sum_abs _ _).trans (Finset.sum_le_sum fun j _ => ?_)
      rw [abs_mul]
      exact mul_le_mul_of_nonneg_left (le_infNorm p j) (abs_nonneg _)
    have hp : α * infNorm p ≤ env.cfg.epsPrim := by rw [← hpn, ← e4, ← r4]; exact n1
    have hnn : 0 ≤ ∑ j, |H i j| := Finset.sum_nonneg fun _ _ => abs_nonneg _
    calc α * |(H *ᵥ p) i| ≤ α * ((∑ j, |H i j|) * infNorm p) := mul_le_mul_of_nonneg_left hb hα0
      _ = (∑ j, |H i j|) * (α * infNorm p) := by ring
      _ ≤ _ := mul_le_mul_of_nonneg_left hp hnn

/-- Every QP of the problem `wrongProblem` has a solution, whatever the Hessian and the point. -/
example (x : Fin 1 → ℚ) (H : Matrix (Fin 1) (Fin 1) ℚ) : ∃ p y,
    (formQP demoBounds x H (wrongProblem.costGrad x) (wrongProblem.jac x) (wrongProblem.constr x)).KKT p y :=
  ⟨_, _, demoQPS_exact PUnit.unit H⟩

end PolyMPC.Sqp
