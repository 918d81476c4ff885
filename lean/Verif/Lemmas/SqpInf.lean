import Verif.Model.SqpInf
import Verif.Lemmas.QPInf

/-!
# SQP: replacing infinite bounds by large finite ones
-/

set_option linter.unusedSectionVars false

namespace PolyMPC.SqpInf
open Matrix PolyMPC.Spec PolyMPC.QPInfBase
open PolyMPC.Sqp (Dual Settings Status Problem Precond QPSolver)

universe u

variable {K : Type u} [Field K] [LinearOrder K] [IsStrictOrderedRing K] {n me mi : ℕ}

/-- `bd'` is `bd` with the infinite bounds replaced by numbers of modulus at least `B`. -/
structure Bounds.Approx (B : K) (bd : Bounds K n mi) (bd' : Sqp.Bounds K n mi) : Prop where
  lbx : ∀ i, LowerApprox B (bd.lbx i) (bd'.lbx i)
  ubx : ∀ i, UpperApprox B (bd.ubx i) (bd'.ubx i)
  lbg : ∀ i, LowerApprox B (bd.lbg i) (bd'.lbg i)
  ubg : ∀ i, UpperApprox B (bd.ubg i) (bd'.ubg i)

theorem Bounds.Approx.mono {B B' : K} (hB : B ≤ B') {bd : Bounds K n mi} {bd' : Sqp.Bounds K n mi} (h : bd.Approx B' bd') : bd.Approx B bd' :=
  ⟨fun i => (h.lbx i).mono hB, fun i => (h.ubx i).mono hB, fun i => (h.lbg i).mono hB, fun i => (h.ubg i).mono hB⟩

/-- The bounds with the infinite ones replaced by `±B`. -/
def Bounds.cut (B : K) (bd : Bounds K n mi) : Sqp.Bounds K n mi where
  lbx := fun i => cutLower B (bd.lbx i)
  ubx := fun i => cutUpper B (bd.ubx i)
  lbg := fun i => cutLower B (bd.lbg i)
  ubg := fun i => cutUpper B (bd.ubg i)

theorem Bounds.cut_approx (B : K) (bd : Bounds K n mi) : bd.Approx B (bd.cut B) :=
  ⟨fun _ => cutLower_approx B _, fun _ => cutUpper_approx B _, fun _ => cutLower_approx B _, fun _ => cutUpper_approx B _⟩

/-- `P` holds for all finite bounds that replace the infinite ones by sufficiently large numbers. -/
def Ev (bd : Bounds K n mi) (P : Sqp.Bounds K n mi → Prop) : Prop := ∃ B, ∀ bd', bd.Approx B bd' → P bd'

theorem Ev.and {bd : Bounds K n mi} {P Q : Sqp.Bounds K n mi → Prop} (h1 : Ev bd P) (h2 : Ev bd Q) : Ev bd fun b => P b ∧ Q b := by
  obtain ⟨B1, h1⟩ := h1
  obtain ⟨B2, h2⟩ := h2
  exact ⟨max B1 B2, fun b hb => ⟨h1 b (hb.mono (le_max_left _ _)), h2 b (hb.mono (le_max_right _ _))⟩⟩

theorem Ev.mp {bd : Bounds K n mi} {P Q : Sqp.Bounds K n mi → Prop} (h1 : Ev bd P) (h2 : ∀ b, P b → Q b) : Ev bd Q := by
  obtain ⟨B1, h1⟩ := h1
  exact ⟨B1, fun b hb => h2 b (h1 b hb)⟩

theorem Ev.all {bd : Bounds K n mi} {P : Sqp.Bounds K n mi → Prop} (h : ∀ b, P b) : Ev bd P := ⟨0, fun b _ => h b⟩

/-! ### Constraint violation -/

theorem posPart_lower {B l v : K} {lb : WithBot K} (hl : LowerApprox B lb l) (hB : |v| ≤ B) : max (l - v) 0 = posPart (subLower lb v) := by
  cases lb with
  | bot =>
    have hl' : l ≤ -B := hl
    exact max_eq_right (by linarith [(abs_le.mp hB).1])
  | coe b =>
    have hl' : l = b := hl
    rw [hl']; rfl

theorem posPart_upper {B u v : K} {ub : WithTop K} (hu : UpperApprox B ub u) (hB : |v| ≤ B) : max (v - u) 0 = posPart (subUpper v ub) := by
  cases ub with
  | top =>
    have hu' : B ≤ u := hu
    exact max_eq_right (by linarith [(abs_le.mp hB).2])
  | coe b =>
    have hu' : u = b := hu
    rw [hu']; rfl

theorem le_sum {k : ℕ} (z : Fin k → K) (i : Fin k) : |z i| ≤ ∑ j, |z j| :=
  Finset.single_le_sum (f := fun j => |z j|) (fun _ _ => abs_nonneg _) (Finset.mem_univ i)

theorem sum_abs_nonneg {k : ℕ} (z : Fin k → K) : 0 ≤ ∑ j, |z j| := Finset.sum_nonneg fun _ _ => abs_nonneg _

theorem constraintsViolation_ev (eps : K) (prob : Problem K n me mi) (bd : Bounds K n mi) (x : Fin n → K) :
    Ev bd fun bd' => Sqp.constraintsViolation eps prob bd' x = constraintsViolation eps prob bd x := by
  refine ⟨∑ i, |prob.ineq x i| + ∑ i, |x i|, fun bd' hb => ?_⟩
  have hg (i) : |prob.ineq x i| ≤ ∑ i, |prob.ineq x i| + ∑ i, |x i| := by linarith [le_sum (prob.ineq x) i, sum_abs_nonneg x]
  have hx (i) : |x i| ≤ ∑ i, |prob.ineq x i| + ∑ i, |x i| := by linarith [le_sum x i, sum_abs_nonneg (prob.ineq x)]
  unfold Sqp.constraintsViolation constraintsViolation
  beta_reduce
  rw [Finset.sum_congr rfl fun i _ => posPart_lower (hb.lbg i) (hg i), Finset.sum_congr rfl fun i _ => posPart_upper (hb.ubg i) (hg i),
    Finset.sum_congr rfl fun i _ => posPart_lower (hb.lbx i) (hx i), Finset.sum_congr rfl fun i _ => posPart_upper (hb.ubx i) (hx i)]

theorem maxLower_le_iff {c r : K} {w : WithBot K} : maxLower c w ≤ r ↔ c ≤ r ∧ w ≤ (r : WithBot K) := by
  cases w with
  | bot => exact ⟨fun h => ⟨h, bot_le⟩, fun h => h.1⟩
  | coe a =>
    change max c a ≤ r ↔ _
    rw [max_le_iff, WithBot.coe_le_coe]

theorem le_maxLower (c : K) (w : WithBot K) : c ≤ maxLower c w := (maxLower_le_iff.mp (le_refl _)).1

theorem max_maxCoeff {k : ℕ} [NeZero k] {c : K} (hc : 0 ≤ c) {v : Fin k → K} {w : Fin k → WithBot K}
    (h : ∀ i (r : K), 0 ≤ r → (v i ≤ r ↔ w i ≤ (r : WithBot K))) : max c (Sqp.maxCoeff v) = maxLower c (maxCoeff w) := by
  have key (r : K) : max c (Sqp.maxCoeff v) ≤ r ↔ maxLower c (maxCoeff w) ≤ r := by
    rw [max_le_iff, maxLower_le_iff]
    refine and_congr_right fun h0 => ?_
    unfold Sqp.maxCoeff maxCoeff
    rw [Finset.sup'_le_iff, Finset.sup'_le_iff]
    exact forall_congr' fun i => imp_congr_right fun _ => h i r (hc.trans h0)
  exact le_antisymm ((key _).mpr (le_refl _)) ((key _).mp (le_refl _))

theorem subLower_le {B l v r : K} {lb : WithBot K} (hl : LowerApprox B lb l) (hB : |v| ≤ B) (hr : 0 ≤ r) :
    l - v ≤ r ↔ subLower lb v ≤ (r : WithBot K) := by
  cases lb with
  | bot =>
    have hl' : l ≤ -B := hl
    exact ⟨fun _ => bot_le, fun _ => by linarith [(abs_le.mp hB).1]⟩
  | coe b =>
    have hl' : l = b := hl
    rw [hl']; exact WithBot.coe_le_coe.symm

theorem subUpper_le {B u v r : K} {ub : WithTop K} (hu : UpperApprox B ub u) (hB : |v| ≤ B) (hr : 0 ≤ r) :
    v - u ≤ r ↔ subUpper v ub ≤ (r : WithBot K) := by
  cases ub with
  | top =>
    have hu' : B ≤ u := hu
    exact ⟨fun _ => bot_le, fun _ => by linarith [(abs_le.mp hB).2]⟩
  | coe b =>
    have hu' : u = b := hu
    rw [hu']; exact WithBot.coe_le_coe.symm

theorem maxConstraintsViolation_ev [NeZero n] (prob : Problem K n me mi) (bd : Bounds K n mi) (x : Fin n → K) :
    Ev bd fun bd' => Sqp.maxConstraintsViolation prob bd' x = maxConstraintsViolation prob bd x := by
  refine ⟨∑ i, |prob.ineq x i| + ∑ i, |x i|, fun bd' hb => ?_⟩
  have hg (i) : |prob.ineq x i| ≤ ∑ i, |prob.ineq x i| + ∑ i, |x i| := by linarith [le_sum (prob.ineq x) i, sum_abs_nonneg x]
  have hx (i) : |x i| ≤ ∑ i, |prob.ineq x i| + ∑ i, |x i| := by linarith [le_sum x i, sum_abs_nonneg (prob.ineq x)]
  have h0 : (0 : K) ≤ if 0 < me then infNorm (prob.eq x) else 0 := by
    split_ifs
    · exact infNorm_nonneg _
    · exact le_refl 0
  unfold Sqp.maxConstraintsViolation maxConstraintsViolation
  simp only []
  generalize (if 0 < me then infNorm (prob.eq x) else 0) = c0 at h0
  by_cases hm : 0 < mi
  · have : NeZero mi := ⟨hm.ne'⟩
    rw [dif_pos hm, dif_pos hm, max_maxCoeff h0 (fun i r hr => subLower_le (hb.lbg i) (hg i) hr)]
    have h1 := h0.trans (le_maxLower c0 (maxCoeff fun i => subLower (bd.lbg i) (prob.ineq x i)))
    rw [max_maxCoeff h1 (fun i r hr => subUpper_le (hb.ubg i) (hg i) hr)]
    have h2 := h1.trans (le_maxLower _ (maxCoeff fun i => subUpper (prob.ineq x i) (bd.ubg i)))
    rw [max_maxCoeff h2 (fun i r hr => subLower_le (hb.lbx i) (hx i) hr)]
    have h3 := h2.trans (le_maxLower _ (maxCoeff fun i => subLower (bd.lbx i) (x i)))
    rw [max_maxCoeff h3 (fun i r hr => subUpper_le (hb.ubx i) (hx i) hr)]
  · rw [dif_neg hm, dif_neg hm, max_maxCoeff h0 (fun i r hr => subLower_le (hb.lbx i) (hx i) hr)]
    have h3 := h0.trans (le_maxLower _ (maxCoeff fun i => subLower (bd.lbx i) (x i)))
    rw [max_maxCoeff h3 (fun i r hr => subUpper_le (hb.ubx i) (hx i) hr)]

/-! ### Line search -/

theorem lineSearchLoop_ev {bd : Bounds K n mi} (tau eta phi Dphi mu : K) (cost : (Fin n → K) → K) {viol : (Fin n → K) → K}
    {viol' : Sqp.Bounds K n mi → (Fin n → K) → K} (hv : ∀ y, Ev bd fun bd' => viol' bd' y = viol y) (x p : Fin n → K) (fuel : ℕ) (alpha logged : K) :
    Ev bd fun bd' => Sqp.lineSearchLoop tau eta phi Dphi mu cost (viol' bd') x p fuel alpha logged =
      Sqp.lineSearchLoop tau eta phi Dphi mu cost viol x p fuel alpha logged := by
  induction fuel generalizing alpha logged with
  | zero => exact Ev.all fun _ => rfl
  | succ k ih =>
    refine ((hv fun i => alpha * p i + x i).and (ih (tau * alpha) (cost fun i => alpha * p i + x i))).mp fun bd' h => ?_
    simp only [Sqp.lineSearchLoop]
    rw [h.1, h.2]

theorem lineSearch_ev (eps : K) (cfg : Settings K) (prob : Problem K n me mi) (bd : Bounds K n mi) (h : Fin n → K)
    (lamK : Dual K n me mi) (x p : Fin n → K) (logged : K) :
    Ev bd fun bd' => Sqp.lineSearch eps cfg prob bd' h lamK x p logged = lineSearch eps cfg prob bd h lamK x p logged := by
  refine ((constraintsViolation_ev eps prob bd x).and (lineSearchLoop_ev cfg.tau cfg.eta
    (prob.cost x + infNorm lamK * constraintsViolation eps prob bd x) (h ⬝ᵥ p - infNorm lamK * constraintsViolation eps prob bd x)
    (infNorm lamK) prob.cost (constraintsViolation_ev eps prob bd) x p (cfg.lineSearchMaxIter - 1).toNat 1 logged)).mp fun bd' hh => ?_
  unfold Sqp.lineSearch lineSearch
  simp only []
  rw [hh.1, hh.2]

/-! ### The QP -/

theorem formQP_approx {B : K} {bd : Bounds K n mi} {bd' : Sqp.Bounds K n mi} (x : Fin n → K) (H : Matrix (Fin n) (Fin n) K) (h : Fin n → K)
    (A : Matrix (Fin (me + mi)) (Fin n) K) (b : Fin (me + mi) → K) (hb : bd.Approx (B + (∑ i, |x i| + ∑ i, |b i|)) bd') :
    (formQP bd x H h A b).Approx B (Sqp.formQP bd' x H h A b) := by
  have hx (i) := (abs_le.mp (le_sum x i))
  have hbs (i) := (abs_le.mp (le_sum b i))
  have sx := sum_abs_nonneg x
  have sb := sum_abs_nonneg b
  refine ⟨rfl, rfl, rfl, fun i => ?_, fun i => ?_⟩
  · rcases i with i | i
    · refine Fin.addCases (fun j => ?_) (fun j => ?_) i
      · simp only [QPInf.lower, QP.lower, Sum.elim_inl, formQP, Sqp.formQP, Fin.addCases_left]
        rfl
      · simp only [QPInf.lower, QP.lower, Sum.elim_inl, formQP, Sqp.formQP, Fin.addCases_right]
        have := hb.lbg j
        revert this
        cases bd.lbg j with
        | bot =>
          intro this
          change _ ≤ _
          have h2 : bd'.lbg j ≤ -(B + (∑ i, |x i| + ∑ i, |b i|)) := this
          linarith [(hbs (Fin.natAdd me j)).1]
        | coe l =>
          intro this
          have h2 : bd'.lbg j = l := this
          rw [h2]; rfl
    · change LowerApprox B ((bd.lbx i).map fun l => l - x i) (bd'.lbx i - x i)
      have := hb.lbx i
      revert this
      cases bd.lbx i with
      | bot =>
        intro this
        change _ ≤ _
        have h2 : bd'.lbx i ≤ -(B + (∑ i, |x i| + ∑ i, |b i|)) := this
        linarith [(hx i).1]
      | coe l =>
        intro this
        have h2 : bd'.lbx i = l := this
        rw [h2]; rfl
  · rcases i with i | i
    · refine Fin.addCases (fun j => ?_) (fun j => ?_) i
      · simp only [QPInf.upper, QP.upper, Sum.elim_inl, formQP, Sqp.formQP, Fin.addCases_left]
        rfl
      · simp only [QPInf.upper, QP.upper, Sum.elim_inl, formQP, Sqp.formQP, Fin.addCases_right]
        have := hb.ubg j
        revert this
        cases bd.ubg j with
        | top =>
          intro this
          change _ ≤ _
          have h2 : B + (∑ i, |x i| + ∑ i, |b i|) ≤ bd'.ubg j := this
          linarith [(hbs (Fin.natAdd me j)).2]
        | coe l =>
          intro this
          have h2 : bd'.ubg j = l := this
          rw [h2]; rfl
    · change UpperApprox B ((bd.ubx i).map fun l => l - x i) (bd'.ubx i - x i)
      have := hb.ubx i
      revert this
      cases bd.ubx i with
      | top =>
        intro this
        change _ ≤ _
        have h2 : B + (∑ i, |x i| + ∑ i, |b i|) ≤ bd'.ubx i := this
        linarith [(hx i).2]
      | coe l =>
        intro this
        have h2 : bd'.ubx i = l := this
        rw [h2]; rfl

/-! ### The solver -/

variable {prec : Precond K n (me + mi)} {qps : QPSolver K n (me + mi)}

/-- The members of two solver objects are equal, except for the bounds in the QP data. -/
structure Same (sI : State K n me mi prec qps) (s : Sqp.State K n me mi prec qps) : Prop where
  x : s.x = sI.x
  lam : s.lam = sI.lam
  lamK : s.lamK = sI.lamK
  H : s.qp.H = sI.qp.H
  h : s.qp.h = sI.qp.h
  A : s.qp.A = sI.qp.A
  cost : s.cost = sI.cost
  iter : s.iter = sI.iter
  qpIter : s.qpIter = sI.qpIter
  status : s.status = sI.status
  lagGradient : s.lagGradient = sI.lagGradient
  stepPrev : s.stepPrev = sI.stepPrev
  primalNorm : s.primalNorm = sI.primalNorm
  dualNorm : s.dualNorm = sI.dualNorm
  maxViolation : s.maxViolation = sI.maxViolation
  precMem : s.precMem = sI.precMem
  qpMem : s.qpMem = sI.qpMem
  callbacks : s.callbacks = sI.callbacks

/-- Both calls fail, or both return and leave the same members. -/
def Agree (rI : Option (State K n me mi prec qps)) (r : Option (Sqp.State K n me mi prec qps)) : Prop :=
  match rI, r with
  | none, none => True
  | some sI, some s => Same sI s
  | _, _ => False

/-- The QP solver does not distinguish infinite bounds from sufficiently large ones. -/
def QPSolverInf.Limit {m : ℕ} {qps : QPSolver K n m} (qi : QPSolverInf qps) : Prop :=
  ∀ mem qp, ∃ B, ∀ qp', qp.Approx B qp' → qps.solve mem qp' = qi.solve mem qp

/-- The preconditioner treats infinite bounds as the limit of large ones. -/
structure PrecondInf.Limit {m : ℕ} {prec : Precond K n m} (pi : PrecondInf prec) : Prop where
  fails : ∀ mem qp, pi.compute mem qp = none → ∃ B, ∀ qp', qp.Approx B qp' → prec.compute mem qp' = none
  computes : ∀ mem qp mem1 q1, pi.compute mem qp = some (mem1, q1) → ∀ B1, ∃ B, ∀ qp', qp.Approx B qp' →
    ∃ q1', prec.compute mem qp' = some (mem1, q1') ∧ q1.Approx B1 q1' ∧ (prec.unscale mem1 q1').H = (pi.unscale mem1 q1).H ∧
      (prec.unscale mem1 q1').h = (pi.unscale mem1 q1).h ∧ (prec.unscale mem1 q1').A = (pi.unscale mem1 q1).A

/-- `F bd'` is the environment `env` with the bounds `bd'`. -/
structure Family (env : Env K n me mi prec qps) (F : Sqp.Bounds K n mi → Sqp.Env K n me mi prec qps) : Prop where
  cfg : ∀ bd, (F bd).cfg = env.cfg
  prob : ∀ bd, (F bd).prob = env.prob
  hessUpdate : ∀ bd, (F bd).hessUpdate = env.hessUpdate
  regularise : ∀ bd, (F bd).regularise = env.regularise
  bd : ∀ bd, (F bd).bd = bd
  stepSize : ∀ h lam x p c, Ev env.bd fun bd' => (F bd').stepSize h lam x p c = env.stepSize h lam x p c

variable {env : Env K n me mi prec qps} {F : Sqp.Bounds K n mi → Sqp.Env K n me mi prec qps}

theorem linearise_ev (hF : Family env F) (sI : State K n me mi prec qps) (B : K) :
    Ev env.bd fun bd' => ∀ s, Same sI s → Same (linearise env sI) (Sqp.linearise (F bd') s) ∧
      (linearise env sI).qp.Approx B (Sqp.linearise (F bd') s).qp := by
  refine ⟨B + (∑ i, |sI.x i| + ∑ i, |env.prob.constr sI.x i|), fun bd' hb s hs => ?_⟩
  have e : (Sqp.linearise (F bd') s).qp = Sqp.formQP bd' sI.x (env.regularise (env.prob.lagHess sI.x sI.lam)) (env.prob.costGrad sI.x)
      (env.prob.jac sI.x) (env.prob.constr sI.x) := by
    unfold Sqp.linearise
    simp only [hF.prob, hF.regularise, hF.bd, hs.x, hs.lam]
  have h2 : (linearise env sI).qp.Approx B (Sqp.linearise (F bd') s).qp := by
    rw [e]
    exact formQP_approx _ _ _ _ _ hb
  refine ⟨⟨hs.x, hs.lam, hs.lamK, h2.H, h2.h, h2.A, hs.cost, hs.iter, hs.qpIter, hs.status, ?_, hs.stepPrev, hs.primalNorm, hs.dualNorm,
    hs.maxViolation, hs.precMem, hs.qpMem, hs.callbacks⟩, h2⟩
  change (F bd').prob.lagGrad s.x s.lam = env.prob.lagGrad sI.x sI.lam
  rw [hF.prob, hs.x, hs.lam]

theorem updateLinearisation_ev (hF : Family env F) (sI : State K n me mi prec qps) (B : K) :
    (updateLinearisation env sI = none ∧ ∀ bd' s, Same sI s → Sqp.updateLinearisation (F bd') s = none) ∨
    ∃ tI, updateLinearisation env sI = some tI ∧
      Ev env.bd fun bd' => ∀ s, Same sI s → ∃ t, Sqp.updateLinearisation (F bd') s = some t ∧ Same tI t ∧ tI.qp.Approx B t.qp := by
  have e0 (bd') (s) (hs : Same sI s) : (F bd').hessUpdate s.qp.H s.stepPrev ((F bd').prob.lagGrad s.x s.lam - s.lagGradient) =
      env.hessUpdate sI.qp.H sI.stepPrev (env.prob.lagGrad sI.x sI.lam - sI.lagGradient) := by
    rw [hF.prob, hF.hessUpdate, hs.H, hs.stepPrev, hs.x, hs.lam, hs.lagGradient]
  cases hu : env.hessUpdate sI.qp.H sI.stepPrev (env.prob.lagGrad sI.x sI.lam - sI.lagGradient) with
  | none =>
    left
    refine ⟨by unfold updateLinearisation; simp only [hu, Option.map_none], fun bd' s hs => ?_⟩
    unfold Sqp.updateLinearisation
    simp only [e0 bd' s hs, hu, Option.map_none]
  | some H =>
    right
    refine ⟨_, by unfold updateLinearisation; simp only [hu, Option.map_some]; rfl,
      B + (∑ i, |sI.x i| + ∑ i, |env.prob.constr sI.x i|), fun bd' hb s hs => ?_⟩
    have h2 := formQP_approx (B := B) sI.x H (env.prob.costGrad sI.x) (env.prob.jac sI.x) (env.prob.constr sI.x) hb
    refine ⟨_, by unfold Sqp.updateLinearisation; simp only [e0 bd' s hs, hu, Option.map_some]; rfl, ?_, ?_⟩
    · refine ⟨hs.x, hs.lam, hs.lamK, rfl, ?_, ?_, hs.cost, hs.iter, hs.qpIter, hs.status, ?_, hs.stepPrev, hs.primalNorm, hs.dualNorm,
        hs.maxViolation, hs.precMem, hs.qpMem, hs.callbacks⟩
      · change (F bd').prob.costGrad s.x = _
        rw [hF.prob, hs.x]; rfl
      · change (F bd').prob.jac s.x = _
        rw [hF.prob, hs.x]; rfl
      · change (F bd').prob.lagGrad s.x s.lam = env.prob.lagGrad sI.x sI.lam
        rw [hF.prob, hs.x, hs.lam]
    · simp only [hF.prob, hF.bd, hs.x]
      exact h2

theorem qpStep_ev (hF : Family env F) (hq : env.qps.Limit) (hp : env.prec.Limit) (sI : State K n me mi prec qps) :
    ∃ B, ∀ bd', env.bd.Approx B bd' → ∀ s, Same sI s → sI.qp.Approx B s.qp → Agree (qpStep env sI) (Sqp.qpStep (F bd') s) := by
  cases hc : env.prec.compute sI.precMem sI.qp with
  | none =>
    obtain ⟨B, hB⟩ := hp.fails _ _ hc
    refine ⟨B, fun bd' _ s hs ha => ?_⟩
    have h1 : qpStep env sI = none := by unfold qpStep; rw [hc]; rfl
    have h2 : Sqp.qpStep (F bd') s = none := by unfold Sqp.qpStep; rw [hs.precMem, hB _ ha]; rfl
    rw [h1, h2]
    trivial
  | some r =>
    obtain ⟨mem, q1⟩ := r
    obtain ⟨B1, hB1⟩ := hq sI.qpMem q1
    obtain ⟨B2, hB2⟩ := hp.computes _ _ _ _ hc B1
    obtain ⟨B3, hB3⟩ := hF.stepSize (env.prec.unscale mem q1).h (prec.unscalePair mem ((env.qps.solve sI.qpMem q1).2.1, (env.qps.solve sI.qpMem q1).2.2.1)).2
      sI.x (prec.unscalePair mem ((env.qps.solve sI.qpMem q1).2.1, (env.qps.solve sI.qpMem q1).2.2.1)).1 sI.cost
    refine ⟨max B2 B3, fun bd' hb s hs ha => ?_⟩
    obtain ⟨q1', e1, a1, eH, eh, eA⟩ := hB2 _ (ha.mono (le_max_left _ _))
    have e3 := hB3 bd' (hb.mono (le_max_right _ _))
    have e2 := hB1 _ a1
    unfold qpStep Sqp.qpStep
    rw [hc, hs.precMem, e1]
    simp only [Option.map_some, hs.qpMem, e2, eh, hs.x, hs.cost, e3]
    change Same _ _
    exact ⟨rfl, by simp only [hs.lam], rfl, eH, eh, eA, rfl, hs.iter, by simp only [hs.qpIter], hs.status, hs.lagGradient, rfl, rfl,
      by simp only [hs.lam], hs.maxViolation, rfl, rfl, hs.callbacks⟩

theorem callback_same (hF : Family env F) (bd' : Sqp.Bounds K n mi) {sI : State K n me mi prec qps} {s : Sqp.State K n me mi prec qps} (hs : Same sI s) :
    Same (callback env sI) (Sqp.callback (F bd') s) := by
  unfold callback Sqp.callback
  rw [hF.cfg]
  split_ifs
  · exact ⟨hs.x, hs.lam, hs.lamK, hs.H, hs.h, hs.A, hs.cost, hs.iter, hs.qpIter, hs.status, hs.lagGradient, hs.stepPrev, hs.primalNorm,
      hs.dualNorm, hs.maxViolation, hs.precMem, hs.qpMem, by simp only [hs.callbacks, hs.x]⟩
  · exact hs

theorem measure_ev [NeZero n] (hF : Family env F) (sI : State K n me mi prec qps) :
    Ev env.bd fun bd' => ∀ s, Same sI s → Same (measure env sI) (Sqp.measure (F bd') s) := by
  refine (maxConstraintsViolation_ev env.prob env.bd sI.x).mp fun bd' h s hs => ?_
  exact ⟨hs.x, hs.lam, hs.lamK, hs.H, hs.h, hs.A, hs.cost, hs.iter, hs.qpIter, hs.status, hs.lagGradient, hs.stepPrev, hs.primalNorm,
    hs.dualNorm, by change Sqp.maxConstraintsViolation (F bd').prob (F bd').bd s.x = _; rw [hF.prob, hF.bd, hs.x, h]; rfl,
    hs.precMem, hs.qpMem, hs.callbacks⟩

theorem terminated_same (hF : Family env F) (bd' : Sqp.Bounds K n mi) {sI : State K n me mi prec qps} {s : Sqp.State K n me mi prec qps} (hs : Same sI s) :
    Sqp.terminated (F bd') s = terminated env sI := by
  unfold terminated Sqp.terminated
  rw [hF.cfg, hs.primalNorm, hs.dualNorm, hs.maxViolation]

theorem same_status {sI : State K n me mi prec qps} {s : Sqp.State K n me mi prec qps} (hs : Same sI s) (c : Status) :
    Same { sI with status := c } { s with status := c } :=
  ⟨hs.x, hs.lam, hs.lamK, hs.H, hs.h, hs.A, hs.cost, hs.iter, hs.qpIter, rfl, hs.lagGradient, hs.stepPrev, hs.primalNorm,
    hs.dualNorm, hs.maxViolation, hs.precMem, hs.qpMem, hs.callbacks⟩

theorem loop_ev [NeZero n] (hF : Family env F) (hq : env.qps.Limit) (hp : env.prec.Limit) (fuel : ℕ) (sI : State K n me mi prec qps) :
    Ev env.bd fun bd' => ∀ s, Same sI s → Agree (loop env fuel sI) (Sqp.loop (F bd') fuel s) := by
  induction fuel generalizing sI with
  | zero => exact Ev.all fun _ s hs => hs
  | succ k ih =>
    by_cases hi : sI.iter < env.cfg.maxIter
    · -- the state with the incremented counter
      obtain ⟨uI, hu⟩ : ∃ uI : State K n me mi prec qps, uI = { sI with iter := sI.iter + 1 } := ⟨_, rfl⟩
      have hsu (s : Sqp.State K n me mi prec qps) (hs : Same sI s) : Same uI { s with iter := s.iter + 1 } := by
        rw [hu]
        exact ⟨hs.x, hs.lam, hs.lamK, hs.H, hs.h, hs.A, hs.cost, by simp only [hs.iter], hs.qpIter, hs.status, hs.lagGradient, hs.stepPrev,
          hs.primalNorm, hs.dualNorm, hs.maxViolation, hs.precMem, hs.qpMem, hs.callbacks⟩
      have eI : loop env (k + 1) sI = (updateLinearisation env uI).bind fun st1 => (qpStep env st1).bind fun st2 =>
          if terminated env (measure env (callback env st2)) then some { measure env (callback env st2) with status := .SOLVED }
          else loop env k (measure env (callback env st2)) := by
        rw [hu]; simp only [loop]; rw [if_pos hi]
      have eF (bd') (s) (hs : Same sI s) : Sqp.loop (F bd') (k + 1) s = (Sqp.updateLinearisation (F bd') { s with iter := s.iter + 1 }).bind fun st1 =>
          (Sqp.qpStep (F bd') st1).bind fun st2 =>
            if Sqp.terminated (F bd') (Sqp.measure (F bd') (Sqp.callback (F bd') st2)) then
              some { Sqp.measure (F bd') (Sqp.callback (F bd') st2) with status := .SOLVED }
            else Sqp.loop (F bd') k (Sqp.measure (F bd') (Sqp.callback (F bd') st2)) := by
        simp only [Sqp.loop]; rw [if_pos (by rw [hs.iter, hF.cfg]; exact hi)]
      rcases updateLinearisation_ev hF uI 0 with ⟨h1, h2⟩ | ⟨tI, ht, _⟩
      · refine Ev.all fun bd' s hs => ?_
        rw [eI, eF bd' s hs, h1, h2 bd' _ (hsu s hs)]
        trivial
      · obtain ⟨B1, hB1⟩ := qpStep_ev hF hq hp tI
        rcases updateLinearisation_ev hF uI B1 with ⟨h1, _⟩ | ⟨tI', ht', hev⟩
        · rw [h1] at ht; exact absurd ht (by simp)
        obtain rfl : tI' = tI := by rw [ht] at ht'; exact (Option.some.inj ht').symm
        have hstep : Ev env.bd fun bd' => ∀ s, Same sI s → ∃ t, Sqp.updateLinearisation (F bd') { s with iter := s.iter + 1 } = some t ∧
            Agree (qpStep env tI') (Sqp.qpStep (F bd') t) := by
          obtain ⟨B2, hB2⟩ := hev
          refine ⟨max B1 B2, fun bd' hb s hs => ?_⟩
          obtain ⟨t, h1, h2, h3⟩ := hB2 bd' (hb.mono (le_max_right _ _)) _ (hsu s hs)
          exact ⟨t, h1, hB1 bd' (hb.mono (le_max_left _ _)) t h2 h3⟩
        cases hqs : qpStep env tI' with
        | none =>
          refine hstep.mp fun bd' h s hs => ?_
          obtain ⟨t, h1, h2⟩ := h s hs
          rw [eI, eF bd' s hs, ht, h1]
          simp only [Option.bind_some]
          rw [hqs] at h2 ⊢
          cases hr : Sqp.qpStep (F bd') t with
          | none => trivial
          | some w => rw [hr] at h2; exact h2.elim
        | some vI =>
          refine ((hstep.and (measure_ev hF (callback env vI))).and (ih (measure env (callback env vI)))).mp fun bd' h s hs => ?_
          obtain ⟨⟨h, hm⟩, hl⟩ := h
          obtain ⟨t, h1, h2⟩ := h s hs
          rw [eI, eF bd' s hs, ht, h1]
          simp only [Option.bind_some]
          rw [hqs] at h2 ⊢
          cases hr : Sqp.qpStep (F bd') t with
          | none => rw [hr] at h2; exact h2.elim
          | some w =>
            rw [hr] at h2
            have h3 := hm _ (callback_same hF bd' (show Same vI w from h2))
            simp only [Option.bind_some]
            rw [terminated_same hF bd' h3]
            cases terminated env (measure env (callback env vI)) with
            | true => exact same_status h3 _
            | false => exact hl _ h3
    · refine Ev.all fun bd' s hs => ?_
      simp only [loop, Sqp.loop]
      rw [if_neg hi, if_neg (by rw [hs.iter, hF.cfg]; exact hi)]
      exact hs

theorem solve_ev [NeZero n] (hF : Family env F) (hq : env.qps.Limit) (hp : env.prec.Limit) (sI : State K n me mi prec qps) :
    Ev env.bd fun bd' => ∀ s, Same sI s → Agree (solve env sI) (Sqp.solve (F bd') s) := by
  obtain ⟨uI, hu⟩ : ∃ uI : State K n me mi prec qps, uI = { sI with status := .MAX_ITER_EXCEEDED, qpIter := 0, iter := 1 } := ⟨_, rfl⟩
  have hsu (s : Sqp.State K n me mi prec qps) (hs : Same sI s) : Same uI { s with status := .MAX_ITER_EXCEEDED, qpIter := 0, iter := 1 } := by
    rw [hu]
    exact ⟨hs.x, hs.lam, hs.lamK, hs.H, hs.h, hs.A, hs.cost, rfl, rfl, rfl, hs.lagGradient, hs.stepPrev,
      hs.primalNorm, hs.dualNorm, hs.maxViolation, hs.precMem, hs.qpMem, hs.callbacks⟩
  have eI : solve env sI = (qpStep env (linearise env uI)).bind fun st1 =>
      if terminated env (measure env st1) then some { measure env st1 with status := .SOLVED }
      else loop env (env.cfg.maxIter - 1).toNat (measure env st1) := by
    rw [hu]; rfl
  have eF (bd') (s : Sqp.State K n me mi prec qps) : Sqp.solve (F bd') s =
      (Sqp.qpStep (F bd') (Sqp.linearise (F bd') { s with status := .MAX_ITER_EXCEEDED, qpIter := 0, iter := 1 })).bind fun st1 =>
      if Sqp.terminated (F bd') (Sqp.measure (F bd') st1) then some { Sqp.measure (F bd') st1 with status := .SOLVED }
      else Sqp.loop (F bd') (env.cfg.maxIter - 1).toNat (Sqp.measure (F bd') st1) := by
    rw [← hF.cfg bd']; rfl
  obtain ⟨B1, hB1⟩ := qpStep_ev hF hq hp (linearise env uI)
  have hstep : Ev env.bd fun bd' => ∀ s, Same sI s → Agree (qpStep env (linearise env uI))
      (Sqp.qpStep (F bd') (Sqp.linearise (F bd') { s with status := .MAX_ITER_EXCEEDED, qpIter := 0, iter := 1 })) := by
    obtain ⟨B2, hB2⟩ := linearise_ev hF uI B1
    refine ⟨max B1 B2, fun bd' hb s hs => ?_⟩
    obtain ⟨h2, h3⟩ := hB2 bd' (hb.mono (le_max_right _ _)) _ (hsu s hs)
    exact hB1 bd' (hb.mono (le_max_left _ _)) _ h2 h3
  cases hqs : qpStep env (linearise env uI) with
  | none =>
    refine hstep.mp fun bd' h s hs => ?_
    have h2 := h s hs
    rw [eI, eF bd' s]
    rw [hqs] at h2 ⊢
    revert h2
    cases hr : Sqp.qpStep (F bd') (Sqp.linearise (F bd') { s with status := .MAX_ITER_EXCEEDED, qpIter := 0, iter := 1 }) with
    | none => exact fun _ => trivial
    | some w => exact fun h2 => h2.elim
  | some vI =>
    refine ((hstep.and (measure_ev hF vI)).and (loop_ev hF hq hp (env.cfg.maxIter - 1).toNat (measure env vI))).mp fun bd' h s hs => ?_
    obtain ⟨⟨h, hm⟩, hl⟩ := h
    have h2 := h s hs
    rw [eI, eF bd' s]
    rw [hqs] at h2 ⊢
    revert h2
    cases hr : Sqp.qpStep (F bd') (Sqp.linearise (F bd') { s with status := .MAX_ITER_EXCEEDED, qpIter := 0, iter := 1 }) with
    | none => exact fun h2 => h2.elim
    | some w =>
      intro h2
      have h3 := hm _ (show Same vI w from h2)
      simp only [Option.bind_some]
      rw [terminated_same hF bd' h3]
      cases terminated env (measure env vI) with
      | true => exact same_status h3 _
      | false => exact hl _ h3

end PolyMPC.SqpInf
