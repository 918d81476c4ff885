import Verif.Model.QPInf
import Mathlib.Algebra.Order.BigOperators.Group.Finset
import Mathlib.Tactic.Linarith

/-!
# Replacing infinite bounds by large finite ones
-/

set_option linter.unusedSectionVars false

namespace PolyMPC.Spec
open Matrix

variable {K : Type*} [Field K] [LinearOrder K] [IsStrictOrderedRing K] {N M : ℕ}

/-- `l` is the lower bound `lb` or, if `lb = -∞`, a number of at most `-B`. -/
def LowerApprox (B : K) (lb : WithBot K) (l : K) : Prop :=
  match lb with
  | ⊥ => l ≤ -B
  | (b : K) => l = b

/-- `u` is the upper bound `ub` or, if `ub = ∞`, a number of at least `B`. -/
def UpperApprox (B : K) (ub : WithTop K) (u : K) : Prop :=
  match ub with
  | ⊤ => B ≤ u
  | (b : K) => u = b

/-- `qp'` is `qp` with the infinite bounds replaced by numbers of modulus at least `B`. -/
structure QPInf.Approx (B : K) (qp : QPInf K N M) (qp' : QP K N M) : Prop where
  H : qp'.H = qp.H
  h : qp'.h = qp.h
  A : qp'.A = qp.A
  lo : ∀ i, LowerApprox B (qp.lower i) (qp'.lower i)
  up : ∀ i, UpperApprox B (qp.upper i) (qp'.upper i)

theorem LowerApprox.mono {B B' : K} (hB : B ≤ B') {lb : WithBot K} {l : K} (h : LowerApprox B' lb l) : LowerApprox B lb l := by
  cases lb with
  | bot => exact le_trans (show l ≤ -B' from h) (by linarith)
  | coe b => exact h

theorem UpperApprox.mono {B B' : K} (hB : B ≤ B') {ub : WithTop K} {u : K} (h : UpperApprox B' ub u) : UpperApprox B ub u := by
  cases ub with
  | top => exact le_trans hB h
  | coe b => exact h

theorem QPInf.Approx.mono {B B' : K} (hB : B ≤ B') {qp : QPInf K N M} {qp' : QP K N M} (h : qp.Approx B' qp') : qp.Approx B qp' :=
  ⟨h.H, h.h, h.A, fun i => (h.lo i).mono hB, fun i => (h.up i).mono hB⟩

/-- Lower bound with `-∞` replaced by `-B`. -/
def cutLower (B : K) (lb : WithBot K) : K :=
  match lb with
  | ⊥ => -B
  | (b : K) => b

/-- Upper bound with `∞` replaced by `B`. -/
def cutUpper (B : K) (ub : WithTop K) : K :=
  match ub with
  | ⊤ => B
  | (b : K) => b

/-- The QP with the infinite bounds replaced by `±B`. -/
def QPInf.cut (B : K) (qp : QPInf K N M) : QP K N M where
  H := qp.H
  h := qp.h
  A := qp.A
  Alb := fun i => cutLower B (qp.Alb i)
  Aub := fun i => cutUpper B (qp.Aub i)
  xlb := fun i => cutLower B (qp.xlb i)
  xub := fun i => cutUpper B (qp.xub i)

theorem cutLower_approx (B : K) (lb : WithBot K) : LowerApprox B lb (cutLower B lb) := by
  cases lb with
  | bot => exact le_refl _
  | coe b => rfl

theorem cutUpper_approx (B : K) (ub : WithTop K) : UpperApprox B ub (cutUpper B ub) := by
  cases ub with
  | top => exact le_refl B
  | coe b => rfl

theorem QPInf.cut_approx (B : K) (qp : QPInf K N M) : qp.Approx B (qp.cut B) := by
  refine ⟨rfl, rfl, rfl, fun i => ?_, fun i => ?_⟩ <;> rcases i with i | i
  · exact cutLower_approx B _
  · exact cutLower_approx B _
  · exact cutUpper_approx B _
  · exact cutUpper_approx B _

/-- Modulus of a finite bound. -/
def absLower (lb : WithBot K) : K :=
  match lb with
  | ⊥ => 0
  | (b : K) => |b|

/-- Modulus of a finite bound. -/
def absUpper (ub : WithTop K) : K :=
  match ub with
  | ⊤ => 0
  | (b : K) => |b|

theorem absLower_nonneg (lb : WithBot K) : 0 ≤ absLower lb := by
  cases lb with
  | bot => exact le_refl 0
  | coe b => exact abs_nonneg b

theorem absUpper_nonneg (ub : WithTop K) : 0 ≤ absUpper ub := by
  cases ub with
  | top => exact le_refl 0
  | coe b => exact abs_nonneg b

/-- A bound on all finite bounds of a QP. -/
def QPInf.size (qp : QPInf K N M) : K := ∑ i, (absLower (qp.lower i) + absUpper (qp.upper i))

theorem QPInf.le_size (qp : QPInf K N M) (i : Fin M ⊕ Fin N) : absLower (qp.lower i) + absUpper (qp.upper i) ≤ qp.size :=
  Finset.single_le_sum (f := fun i => absLower (qp.lower i) + absUpper (qp.upper i))
    (fun _ _ => add_nonneg (absLower_nonneg _) (absUpper_nonneg _)) (Finset.mem_univ i)

theorem QPInf.size_nonneg (qp : QPInf K N M) : 0 ≤ qp.size :=
  Finset.sum_nonneg fun _ _ => add_nonneg (absLower_nonneg _) (absUpper_nonneg _)

end PolyMPC.Spec

namespace PolyMPC.QPInfBase
open Matrix PolyMPC.Spec PolyMPC.QPBase

variable {K : Type*} [Field K] [LinearOrder K] [IsStrictOrderedRing K] {N M : ℕ}

/-- The projection does not notice the difference between an infinite bound and a large one. -/
theorem clip_approx {B v l u : K} {lb : WithBot K} {ub : WithTop K} (hl : LowerApprox B lb l) (hu : UpperApprox B ub u)
    (hB : |v| + absLower lb ≤ B) : minUpper (maxLower v lb) ub = min (max v l) u := by
  have hv := abs_le.mp (le_refl |v|)
  have h1 : maxLower v lb = max v l := by
    cases lb with
    | bot =>
      have hl' : l ≤ -B := hl
      have hB' : |v| + 0 ≤ B := hB
      exact (max_eq_left (show l ≤ v by linarith [hv.1])).symm
    | coe b =>
      have hl' : l = b := hl
      rw [hl']; rfl
  have h2 : max v l ≤ |v| + absLower lb := by
    rw [← h1]
    cases lb with
    | bot =>
      change v ≤ |v| + 0
      linarith [hv.2]
    | coe b =>
      change max v b ≤ |v| + |b|
      exact max_le (by linarith [hv.2, abs_nonneg b]) (by linarith [le_abs_self b, abs_nonneg v])
  rw [h1]
  cases ub with
  | top =>
    have hu' : B ≤ u := hu
    exact (min_eq_left (show max v l ≤ u by linarith)).symm
  | coe b =>
    have hu' : u = b := hu
    rw [hu']; rfl

/-- Neither does the classification of the constraints. -/
theorem classify_approx {B l u : K} {lb : WithBot K} {ub : WithTop K} (hl : LowerApprox B lb l) (hu : UpperApprox B ub u)
    (hB : looseBoundsThresh + 1 + (absLower lb + absUpper ub) ≤ B) : QPBase.classify l u = classify lb ub := by
  have ht : (0 : K) < looseBoundsThresh := by unfold looseBoundsThresh; norm_num
  have he : (eqTol : K) < 1 := by unfold eqTol; norm_num
  cases lb with
  | bot =>
    have hl' : l ≤ -B := hl
    cases ub with
    | top =>
      have hu' : B ≤ u := hu
      have hB' : looseBoundsThresh + 1 + (0 + 0) ≤ B := hB
      unfold QPBase.classify classify
      rw [if_pos ⟨by linarith, by linarith⟩, if_pos ⟨WithBot.bot_lt_coe _, WithTop.coe_lt_top _⟩]
    | coe b =>
      have hu' : u = b := hu
      have hB' : looseBoundsThresh + 1 + (0 + |b|) ≤ B := hB
      have hb := neg_abs_le b
      unfold QPBase.classify classify
      by_cases h1 : u > looseBoundsThresh
      · rw [if_pos ⟨by linarith [abs_nonneg b], h1⟩, if_pos ⟨WithBot.bot_lt_coe _, by
          rw [hu'] at h1; exact WithTop.coe_lt_coe.mpr h1⟩]
      · have g : ¬ u - l < eqTol := by rw [hu']; linarith
        rw [if_neg (fun h => h1 h.2), if_neg g]
        rw [if_neg (fun h => h1 (by rw [hu']; exact WithTop.coe_lt_coe.mp h.2)),
          if_neg (fun h : gapSmall (⊥ : WithBot K) (b : WithTop K) => h)]
  | coe a =>
    have hl' : l = a := hl
    cases ub with
    | top =>
      have hu' : B ≤ u := hu
      have hB' : looseBoundsThresh + 1 + (|a| + 0) ≤ B := hB
      have ha := le_abs_self a
      unfold QPBase.classify classify
      by_cases h1 : l < -looseBoundsThresh
      · rw [if_pos ⟨h1, by linarith [abs_nonneg a]⟩, if_pos ⟨by
          rw [hl'] at h1; exact WithBot.coe_lt_coe.mpr h1, WithTop.coe_lt_top _⟩]
      · have g : ¬ u - l < eqTol := by rw [hl']; linarith
        rw [if_neg (fun h => h1 h.1), if_neg g]
        rw [if_neg (fun h => h1 (by rw [hl']; exact WithBot.coe_lt_coe.mp h.1)),
          if_neg (fun h : gapSmall (a : WithBot K) (⊤ : WithTop K) => h)]
    | coe b =>
      have hu' : u = b := hu
      subst hl' hu'
      unfold QPBase.classify classify
      have e1 : ((l : WithBot K) < ((-looseBoundsThresh : K) : WithBot K) ∧ ((u : WithTop K) > ((looseBoundsThresh : K) : WithTop K))) ↔
          (l < -looseBoundsThresh ∧ u > looseBoundsThresh) := and_congr WithBot.coe_lt_coe WithTop.coe_lt_coe
      have e2 : gapSmall (l : WithBot K) (u : WithTop K) ↔ u - l < eqTol := Iff.rfl
      by_cases h1 : l < -looseBoundsThresh ∧ u > looseBoundsThresh
      · rw [if_pos h1, if_pos (e1.mpr h1)]
      · rw [if_neg h1, if_neg (fun h => h1 (e1.mp h))]
        by_cases h2 : u - l < eqTol
        · rw [if_pos h2, if_pos (e2.mpr h2)]
        · rw [if_neg h2, if_neg (fun h => h2 (e2.mp h))]

/-- From which value on the classification is settled. -/
theorem parse_approx {B : K} {qp : QPInf K N M} {qp' : QP K N M} (h : qp.Approx B qp') (hB : looseBoundsThresh + 1 + qp.size ≤ B) :
    (parseConstr qp'.Alb qp'.Aub = fun i => classify (qp.Alb i) (qp.Aub i)) ∧
      parseBox qp'.xlb qp'.xub = fun i => classify (qp.xlb i) (qp.xub i) := by
  constructor
  · funext i
    exact classify_approx (h.lo (Sum.inl i)) (h.up (Sum.inl i)) ((add_le_add_right (qp.le_size (Sum.inl i)) _).trans hB)
  · funext i
    exact classify_approx (h.lo (Sum.inr i)) (h.up (Sum.inr i)) ((add_le_add_right (qp.le_size (Sum.inr i)) _).trans hB)

end PolyMPC.QPInfBase

namespace PolyMPC.AdmmInf
open Matrix PolyMPC.Spec PolyMPC.QPBase PolyMPC.QPInfBase
open PolyMPC.Admm (StepResult State KktMat KktIdx)

variable {K : Type*} [Field K] [LinearOrder K] [IsStrictOrderedRing K] {N M : ℕ}
variable {both : Bool} {lin : KktMat K N M → (KktIdx N M → K) → (KktIdx N M → K)} {sq : K → K} {cfg : Settings K}
  {qp : QPInf K N M} {xg : Fin N → K} {yg : Fin M ⊕ Fin N → K} {old : State K N M}

theorem residualsUpdate_approx {B : K} {qp' : QP K N M} (h : qp.Approx B qp') (st : State K N M) :
    Admm.residualsUpdate qp' st = Admm.residualsUpdate (data qp) st := by
  unfold Admm.residualsUpdate
  rw [h.H, h.h, h.A]; rfl

theorem admmUpdate_approx (lin : KktMat K N M → (KktIdx N M → K) → (KktIdx N M → K)) (cfg : Settings K) (qp : QPInf K N M)
    (st : State K N M) : ∃ B, ∀ qp', qp.Approx B qp' → Admm.admmUpdate lin cfg qp' st = admmUpdate lin cfg qp st := by
  set z1 : Fin M ⊕ Fin N → K := fun i =>
    cfg.alpha * (st.z i + st.rhoInvVec i * (lin st.fact (Admm.kktRhs cfg.sigma qp.h st) (Sum.inr i) - st.y i)) +
      ((1 - cfg.alpha) * st.z i + st.rhoInvVec i * st.y i) with hz1
  refine ⟨∑ i, |z1 i| + qp.size, fun qp' ha => ?_⟩
  have hb : ∀ i, |z1 i| + absLower (qp.lower i) ≤ ∑ i, |z1 i| + qp.size := fun i =>
    add_le_add (Finset.single_le_sum (f := fun i => |z1 i|) (fun _ _ => abs_nonneg _) (Finset.mem_univ i))
      ((le_add_of_nonneg_right (absUpper_nonneg _)).trans (qp.le_size i))
  have hz : Admm.boxProjection z1 qp'.Alb qp'.Aub qp'.xlb qp'.xub = boxProjection z1 qp.Alb qp.Aub qp.xlb qp.xub := by
    funext i
    rcases i with i | i
    · exact (clip_approx (ha.lo (Sum.inl i)) (ha.up (Sum.inl i)) (hb (Sum.inl i))).symm
    · exact (clip_approx (ha.lo (Sum.inr i)) (ha.up (Sum.inr i)) (hb (Sum.inr i))).symm
  unfold Admm.admmUpdate admmUpdate
  rw [ha.h]
  simp only [← hz1, hz]

theorem body_approx (lin : KktMat K N M → (KktIdx N M → K) → (KktIdx N M → K)) (sq : K → K) (cfg : Settings K) (qp : QPInf K N M)
    (iter : ℤ) (st : State K N M) : ∃ B, ∀ qp', qp.Approx B qp' → Admm.body lin sq cfg qp' iter st = body lin sq cfg qp iter st := by
  obtain ⟨B, hB⟩ := admmUpdate_approx lin cfg qp st
  refine ⟨B, fun qp' ha => ?_⟩
  unfold Admm.body body
  rw [hB qp' ha]
  simp only [residualsUpdate_approx ha]

theorem loop_approx (lin : KktMat K N M → (KktIdx N M → K) → (KktIdx N M → K)) (sq : K → K) (cfg : Settings K) (qp : QPInf K N M)
    (n : ℕ) : ∀ (iter : ℤ) (st : State K N M),
      ∃ B, ∀ qp', qp.Approx B qp' → Admm.loop lin sq cfg qp' n iter st = loop lin sq cfg qp n iter st := by
  induction n with
  | zero => exact fun iter st => ⟨0, fun _ _ => rfl⟩
  | succ n ih =>
    intro iter st
    obtain ⟨B1, h1⟩ := body_approx lin sq cfg qp iter st
    cases hb : body lin sq cfg qp iter st with
    | ub =>
      refine ⟨B1, fun qp' ha => ?_⟩
      simp only [Admm.loop, loop, h1 qp' ha, hb]
    | brk s =>
      refine ⟨B1, fun qp' ha => ?_⟩
      simp only [Admm.loop, loop, h1 qp' ha, hb]
    | cont s =>
      obtain ⟨B2, h2⟩ := ih (iter + 1) s
      refine ⟨max B1 B2, fun qp' ha => ?_⟩
      simp only [Admm.loop, loop, h1 qp' (ha.mono (le_max_left _ _)), hb, h2 qp' (ha.mono (le_max_right _ _))]

theorem setup_approx {B : K} {qp' : QP K N M} (h : qp.Approx B qp') (hB : looseBoundsThresh + 1 + qp.size ≤ B) :
    Admm.setup both cfg qp' xg yg old = setup both cfg qp xg yg old := by
  unfold Admm.setup setup
  rw [(parse_approx h hB).1, (parse_approx h hB).2, h.A, h.H]

end PolyMPC.AdmmInf

namespace PolyMPC.BoxAdmmInf
open Matrix PolyMPC.Spec PolyMPC.QPBase PolyMPC.QPInfBase
open PolyMPC.Admm (StepResult)
open PolyMPC.BoxAdmm (State KktMat KktIdx)

variable {K : Type*} [Field K] [LinearOrder K] [IsStrictOrderedRing K] {N M : ℕ}
variable {both : Bool} {lin : KktMat K N M → (KktIdx N M → K) → (KktIdx N M → K)} {sq : K → K} {cfg : Settings K}
  {qp : QPInf K N M} {xg : Fin N → K} {yg : Fin M ⊕ Fin N → K} {old : State K N M}

theorem residualsUpdate_approx {B : K} {qp' : QP K N M} (h : qp.Approx B qp') (st : State K N M) :
    BoxAdmm.residualsUpdate qp' st = BoxAdmm.residualsUpdate (data qp) st := by
  unfold BoxAdmm.residualsUpdate
  rw [h.H, h.h, h.A]; rfl

theorem admmUpdate_approx (lin : KktMat K N M → (KktIdx N M → K) → (KktIdx N M → K)) (cfg : Settings K) (qp : QPInf K N M)
    (st : State K N M) : ∃ B, ∀ qp', qp.Approx B qp' → BoxAdmm.admmUpdate lin cfg qp' st = admmUpdate lin cfg qp st := by
  set z1 : Fin M → K := fun i =>
    cfg.alpha * (st.z i + st.rhoInvVec i * (lin st.fact (BoxAdmm.kktRhs cfg.sigma qp.h st) (Sum.inr i) - headM st.y i)) +
      ((1 - cfg.alpha) * st.z i + st.rhoInvVec i * headM st.y i) with hz1
  set q1 : Fin N → K := fun i =>
    BoxAdmm.xUpdate cfg.alpha (fun i => lin st.fact (BoxAdmm.kktRhs cfg.sigma qp.h st) (Sum.inl i)) i +
      st.rhoVecBoxInv i * tailN st.y i with hq1
  have s1 : 0 ≤ ∑ i, |z1 i| := Finset.sum_nonneg fun _ _ => abs_nonneg _
  have s2 : 0 ≤ ∑ i, |q1 i| := Finset.sum_nonneg fun _ _ => abs_nonneg _
  refine ⟨∑ i, |z1 i| + ∑ i, |q1 i| + qp.size, fun qp' ha => ?_⟩
  have hz : (fun i => min (max (z1 i) (qp'.Alb i)) (qp'.Aub i)) = fun i => minUpper (maxLower (z1 i) (qp.Alb i)) (qp.Aub i) := by
    funext i
    refine (clip_approx (ha.lo (Sum.inl i)) (ha.up (Sum.inl i)) ?_).symm
    have e1 := Finset.single_le_sum (f := fun i => |z1 i|) (fun _ _ => abs_nonneg _) (Finset.mem_univ i)
    have e2 := (le_add_of_nonneg_right (absUpper_nonneg _)).trans (qp.le_size (Sum.inl i))
    linarith
  have hq : (fun i => min (max (q1 i) (qp'.xlb i)) (qp'.xub i)) = fun i => minUpper (maxLower (q1 i) (qp.xlb i)) (qp.xub i) := by
    funext i
    refine (clip_approx (ha.lo (Sum.inr i)) (ha.up (Sum.inr i)) ?_).symm
    have e1 := Finset.single_le_sum (f := fun i => |q1 i|) (fun _ _ => abs_nonneg _) (Finset.mem_univ i)
    have e2 := (le_add_of_nonneg_right (absUpper_nonneg _)).trans (qp.le_size (Sum.inr i))
    linarith
  have hz' := fun i => congrFun hz i
  have hq' := fun i => congrFun hq i
  simp only [hz1] at hz'
  simp only [hq1] at hq'
  unfold BoxAdmm.admmUpdate admmUpdate
  rw [ha.h]
  simp only [hz', hq']

theorem body_approx (lin : KktMat K N M → (KktIdx N M → K) → (KktIdx N M → K)) (sq : K → K) (cfg : Settings K) (qp : QPInf K N M)
    (iter : ℤ) (st : State K N M) :
    ∃ B, ∀ qp', qp.Approx B qp' → BoxAdmm.body lin sq cfg qp' iter st = body lin sq cfg qp iter st := by
  obtain ⟨B, hB⟩ := admmUpdate_approx lin cfg qp st
  refine ⟨B, fun qp' ha => ?_⟩
  unfold BoxAdmm.body body
  rw [hB qp' ha]
  simp only [residualsUpdate_approx ha]

theorem loop_approx (lin : KktMat K N M → (KktIdx N M → K) → (KktIdx N M → K)) (sq : K → K) (cfg : Settings K) (qp : QPInf K N M)
    (n : ℕ) : ∀ (iter : ℤ) (st : State K N M),
      ∃ B, ∀ qp', qp.Approx B qp' → BoxAdmm.loop lin sq cfg qp' n iter st = loop lin sq cfg qp n iter st := by
  induction n with
  | zero => exact fun iter st => ⟨0, fun _ _ => rfl⟩
  | succ n ih =>
    intro iter st
    obtain ⟨B1, h1⟩ := body_approx lin sq cfg qp iter st
    cases hb : body lin sq cfg qp iter st with
    | ub =>
      refine ⟨B1, fun qp' ha => ?_⟩
      simp only [BoxAdmm.loop, loop, h1 qp' ha, hb]
    | brk s =>
      refine ⟨B1, fun qp' ha => ?_⟩
      simp only [BoxAdmm.loop, loop, h1 qp' ha, hb]
    | cont s =>
      obtain ⟨B2, h2⟩ := ih (iter + 1) s
      refine ⟨max B1 B2, fun qp' ha => ?_⟩
      simp only [BoxAdmm.loop, loop, h1 qp' (ha.mono (le_max_left _ _)), hb, h2 qp' (ha.mono (le_max_right _ _))]

theorem setup_approx {B : K} {qp' : QP K N M} (h : qp.Approx B qp') (hB : looseBoundsThresh + 1 + qp.size ≤ B) :
    BoxAdmm.setup both cfg qp' xg yg old = setup both cfg qp xg yg old := by
  unfold BoxAdmm.setup setup
  rw [(parse_approx h hB).1, (parse_approx h hB).2, h.A, h.H]

end PolyMPC.BoxAdmmInf
