import Verif.Lemmas.Regular
import Verif.Lemmas.Farkas
import Verif.Spec.Local
import Verif.Model.SqpOverride
import Verif.Props.SqpTheory
import Mathlib.Analysis.Calculus.MeanValue
import Mathlib.Analysis.Calculus.FDeriv.Add

/-!
# Local convergence of SQP: the estimate for one step
-/

set_option linter.unusedSectionVars false

namespace PolyMPC.Sqp
open Matrix PolyMPC.Spec PolyMPC.QuasiNewton

variable {n me mi : ℕ}

theorem infNorm_eq {ι : Type*} [Fintype ι] (v : ι → ℝ) : infNorm v = ‖v‖ :=
  le_antisymm ((infNorm_le_iff v).2 ⟨norm_nonneg _, fun i => norm_le_pi_norm v i⟩)
    ((pi_norm_le_iff_of_nonneg (infNorm_nonneg v)).2 fun i => le_infNorm v i)

theorem linMap_apply {m : ℕ} (A : Matrix (Fin m) (Fin n) ℝ) (v : Fin n → ℝ) : linMap A v = A *ᵥ v := rfl

theorem linMap_sub_norm {m : ℕ} {A B : Matrix (Fin m) (Fin n) ℝ} {b : ℝ} (hb : 0 ≤ b) (h : ∀ i j, |A i j - B i j| ≤ b) : ‖linMap A - linMap B‖ ≤ n * b := by
  refine ContinuousLinearMap.opNorm_le_bound _ (by positivity) fun v => ?_
  have := mulVec_le (A := A - B) hb (fun i j => h i j) v
  rw [Fintype.card_fin] at this
  rw [_root_.sub_apply, linMap_apply, linMap_apply, ← sub_mulVec]
  exact this

/-- The error of linearising `φ` with the matrix `A` on a ball where its Jacobian `F` is close to `A`. -/
theorem linear_error {m : ℕ} {φ : (Fin n → ℝ) → Fin m → ℝ} {F : (Fin n → ℝ) → Matrix (Fin m) (Fin n) ℝ} {A : Matrix (Fin m) (Fin n) ℝ} {xs x : Fin n → ℝ} {b : ℝ} (hb : 0 ≤ b)
    (hd : ∀ w, ‖w - xs‖ ≤ ‖x - xs‖ → HasFDerivAt φ (linMap (F w)) w) (hF : ∀ w, ‖w - xs‖ ≤ ‖x - xs‖ → ∀ i j, |F w i j - A i j| ≤ b) :
    ‖φ x - φ xs - A *ᵥ (x - xs)‖ ≤ n * b * ‖x - xs‖ := by
  have hmem : ∀ w, w ∈ Metric.closedBall xs ‖x - xs‖ → ‖w - xs‖ ≤ ‖x - xs‖ := fun w hw => by rwa [Metric.mem_closedBall, dist_eq_norm] at hw
  have h := (convex_closedBall xs ‖x - xs‖).norm_image_sub_le_of_norm_hasFDerivWithin_le (f := fun w => φ w - linMap A w) (f' := fun w => linMap (F w) - linMap A) (C := n * b)
    (x := xs) (y := x) (fun w hw => ((hd w (hmem w hw)).sub (linMap A).hasFDerivAt).hasFDerivWithinAt) (fun w hw => linMap_sub_norm hb (hF w (hmem w hw)))
    (Metric.mem_closedBall_self (norm_nonneg _)) (by rw [Metric.mem_closedBall, dist_eq_norm])
  refine le_trans (le_of_eq ?_) h
  congr 1
  rw [mulVec_sub]
  simp only [linMap_apply]
  abel

/-- A solution of the nonlinear program with linearly independent gradients of the active constraints and positive definite Hessian of the Lagrangian. -/
structure RegularSolution (prob : Problem ℝ n me mi) (bd : Bounds ℝ n mi) (xs : Fin n → ℝ) (ys : Dual ℝ n me mi) : Prop where
  stationary : Stationary prob bd xs ys
  licq : LICQ (prob.constr xs) (prob.jac xs) xs bd.lbg bd.ubg bd.lbx bd.ubx
  posdef : ∀ v, v ≠ 0 → 0 < v ⬝ᵥ prob.lagHess xs ys *ᵥ v

/-- The derivatives handed to the solver are the derivatives of the constraints and of the gradient of the Lagrangian near the solution. -/
def Smooth (prob : Problem ℝ n me mi) (xs : Fin n → ℝ) (ys : Dual ℝ n me mi) : Prop :=
  SmoothNear prob.constr prob.jac prob.costGrad prob.lagHess xs ys

theorem grads_mulVec (J : Matrix (Fin (me + mi)) (Fin n) ℝ) (v : Fin n → ℝ) : nlpGrads J *ᵥ v = Sum.elim (J *ᵥ v) v := by
  unfold nlpGrads
  rw [fromRows_mulVec, one_mulVec]

theorem grads_transpose (J : Matrix (Fin (me + mi)) (Fin n) ℝ) (y : Dual ℝ n me mi) : (nlpGrads J)ᵀ *ᵥ y = Jᵀ *ᵥ QP.yA y + QP.yBox y := by
  unfold nlpGrads
  rw [transpose_fromRows, fromCols_mulVec, transpose_one, one_mulVec]
  rfl

theorem bounds_lower (bd : Bounds ℝ n mi) (x : Fin n → ℝ) (H : Matrix (Fin n) (Fin n) ℝ) (h : Fin n → ℝ) (A : Matrix (Fin (me + mi)) (Fin n) ℝ) (b : Fin (me + mi) → ℝ) (i) :
    (formQP bd x H h A b).lower i = nlpBound bd.lbg bd.lbx i - nlpRows b x i ∧ (formQP bd x H h A b).upper i = nlpBound bd.ubg bd.ubx i - nlpRows b x i := by
  rcases i with i | i
  · induction i using Fin.addCases with
    | left i => simp [QP.lower, QP.upper, formQP, nlpBound, nlpRows]
    | right i => simp [QP.lower, QP.upper, formQP, nlpBound, nlpRows]; constructor <;> ring
  · exact ⟨rfl, rfl⟩

/-- The optimality conditions of the QP in terms of the new point. -/
theorem formQP_kkt {bd : Bounds ℝ n mi} {x xs p : Fin n → ℝ} {H : Matrix (Fin n) (Fin n) ℝ} {h : Fin n → ℝ} {A : Matrix (Fin (me + mi)) (Fin n) ℝ} {b : Fin (me + mi) → ℝ}
    {y : Dual ℝ n me mi} (z : Dual ℝ n me mi) :
    (formQP bd x H h A b).KKT p y ↔ H *ᵥ p + h + (nlpGrads A)ᵀ *ᵥ y = 0 ∧
      QP.InNormalCone (nlpBound bd.lbg bd.lbx) (nlpBound bd.ubg bd.ubx) (z + (nlpRows b x - z - nlpGrads A *ᵥ (x - xs)) + nlpGrads A *ᵥ (x + p - xs)) y := by
  have e : z + (nlpRows b x - z - nlpGrads A *ᵥ (x - xs)) + nlpGrads A *ᵥ (x + p - xs) = nlpRows b x + nlpGrads A *ᵥ p := by
    have : x + p - xs = (x - xs) + p := by abel
    rw [this, mulVec_add]; abel
  rw [e, QP.KKT, grads_transpose, ← add_assoc]
  refine and_congr Iff.rfl (forall_congr' fun i => ?_)
  obtain ⟨h1, h2⟩ := bounds_lower bd x H h A b i
  have h3 : (formQP bd x H h A b).rows p i = (nlpGrads A *ᵥ p) i := by rw [grads_mulVec]; rfl
  rw [h1, h2, h3, Pi.add_apply]
  refine and_congr (and_congr ?_ ?_) (and_congr ?_ ?_)
  · rw [sub_le_iff_le_add']
  · rw [le_sub_iff_add_le']
  · rw [eq_sub_iff_add_eq']
  · rw [eq_sub_iff_add_eq']

theorem formQP_feasible {bd : Bounds ℝ n mi} {x p : Fin n → ℝ} {H : Matrix (Fin n) (Fin n) ℝ} {h : Fin n → ℝ} {A : Matrix (Fin (me + mi)) (Fin n) ℝ} {b : Fin (me + mi) → ℝ}
    (hf : ∀ i, nlpBound bd.lbg bd.lbx i ≤ (nlpRows b x + nlpGrads A *ᵥ p) i ∧ (nlpRows b x + nlpGrads A *ᵥ p) i ≤ nlpBound bd.ubg bd.ubx i) :
    (formQP bd x H h A b).Feasible p := by
  rw [QP.feasible_iff]
  intro i
  obtain ⟨h1, h2⟩ := bounds_lower bd x H h A b i
  have h3 : (formQP bd x H h A b).rows p i = (nlpGrads A *ᵥ p) i := by rw [grads_mulVec]; rfl
  have := hf i
  rw [Pi.add_apply] at this
  rw [h1, h2, h3]
  constructor <;> linarith [this.1, this.2]

/-- A stationary point satisfies the conditions of `regular`. -/
theorem stationary_cone {prob : Problem ℝ n me mi} (hc : Coherent prob) {bd : Bounds ℝ n mi} {xs : Fin n → ℝ} {ys : Dual ℝ n me mi} (hs : Stationary prob bd xs ys) :
    prob.costGrad xs + (nlpGrads (prob.jac xs))ᵀ *ᵥ ys = 0 ∧
      QP.InNormalCone (nlpBound bd.lbg bd.lbx) (nlpBound bd.ubg bd.ubx) (nlpRows (prob.constr xs) xs) ys := by
  have h := (formQP_kkt (x := xs) (xs := xs) (nlpRows (prob.constr xs) xs)).1 ((zero_step_iff_stationary hc bd xs 0 ys).2 hs)
  rw [mulVec_zero, zero_add, add_zero, sub_self, sub_self, mulVec_zero, sub_zero, add_zero, add_zero] at h
  exact h

/-- Near a regular solution the QP of the SQP method is strictly convex and solvable, and its solutions are close to the solution: the new error is at most the old error times a multiple of
the old error and the error of the Hessian. -/
theorem step_estimate {prob : Problem ℝ n me mi} (hc : Coherent prob) {bd : Bounds ℝ n mi} {xs : Fin n → ℝ} {ys : Dual ℝ n me mi} (hr : RegularSolution prob bd xs ys)
    (hsm : Smooth prob xs ys) :
    ∃ δ > 0, ∃ C > 0, ∀ x H κ, ‖x - xs‖ ≤ δ → Hᵀ = H → 0 ≤ κ → κ ≤ δ → (∀ i j, |H i j - prob.lagHess xs ys i j| ≤ κ) →
      SPD H ∧ (∃ p y, (formQP bd x H (prob.costGrad x) (prob.jac x) (prob.constr x)).KKT p y) ∧
      ∀ p y, (formQP bd x H (prob.costGrad x) (prob.jac x) (prob.constr x)).KKT p y →
        ‖x + p - xs‖ ≤ C * (κ + ‖x - xs‖) * ‖x - xs‖ ∧ ‖y - ys‖ ≤ C * (κ + ‖x - xs‖) * ‖x - xs‖ := by
  obtain ⟨r, hr0, L, hL⟩ := hsm
  obtain ⟨hst, hcone⟩ := stationary_cone hc hr.stationary
  obtain ⟨ε, hε, C, hC, hreg⟩ := regular hr.posdef hcone hr.licq
  obtain ⟨c, hc0, ε', hε', hcoer⟩ := coercive_near hr.posdef
  set L' := max L 1 with hL'
  have hL'0 : 0 < L' := lt_of_lt_of_le one_pos (le_max_right _ _)
  have hLL : L ≤ L' := le_max_left _ _
  -- size of the perturbations
  set δ := min (min r 1) (min (min ε ε') (ε / (2 * L' * (n + 1) + 1))) with hδd
  have hδ0 : 0 < δ := by positivity
  have hδr : δ ≤ r := (min_le_left _ _).trans (min_le_left _ _)
  have hδ1 : δ ≤ 1 := (min_le_left _ _).trans (min_le_right _ _)
  have hδε : δ ≤ ε := (min_le_right _ _).trans ((min_le_left _ _).trans (min_le_left _ _))
  have hδε' : δ ≤ ε' := (min_le_right _ _).trans ((min_le_left _ _).trans (min_le_right _ _))
  have hδL : (2 * L' * (n + 1) + 1) * δ ≤ ε := by
    have : δ ≤ ε / (2 * L' * (n + 1) + 1) := (min_le_right _ _).trans (min_le_right _ _)
    rwa [le_div_iff₀' (by positivity)] at this
  refine ⟨δ, hδ0, C * (4 * L' * (n + 1)), by positivity, fun x H κ hx hsym hκ0 hκ hH => ?_⟩
  have hxr := hx.trans hδr
  set e := ‖x - xs‖ with he
  have he0 : 0 ≤ e := norm_nonneg _
  have hHδ : ∀ i j, |H i j - prob.lagHess xs ys i j| ≤ δ := fun i j => (hH i j).trans hκ
  have hspd : SPD H := by
    refine ⟨hsym, fun v hv => ?_⟩
    have h1 := hcoer H (fun i j => (hHδ i j).trans hδε') v
    have h2 : 0 < c * ‖v‖ ^ 2 := mul_pos hc0 (pow_pos (norm_pos_iff.2 hv) 2)
    linarith
  have hin : ∀ w, ‖w - xs‖ ≤ e → ‖w - xs‖ ≤ r := fun w hw => hw.trans hxr
  have hJ : ∀ w, ‖w - xs‖ ≤ e → ∀ i j, |prob.jac w i j - prob.jac xs i j| ≤ L' * e := fun w hw i j =>
    ((hL w (hin w hw)).2.2.1 i j).trans (mul_le_mul hLL hw (norm_nonneg _) hL'0.le)
  have hW : ∀ w, ‖w - xs‖ ≤ e → ∀ i j, |prob.lagHess w ys i j - prob.lagHess xs ys i j| ≤ L' * e := fun w hw i j => by
    refine (((hL w (hin w hw)).2.2.2 ys (by rw [sub_self, norm_zero]; exact hr0.le)).2 i j).trans (mul_le_mul hLL ?_ (by positivity) hL'0.le)
    rw [sub_self, norm_zero]
    exact max_le hw he0
  -- the constraints
  have hρ1 : ‖prob.constr x - prob.constr xs - prob.jac x *ᵥ (x - xs)‖ ≤ n * (2 * (L' * e)) * e := by
    refine linear_error (F := prob.jac) (by positivity) (fun w hw => (hL w (hin w hw)).1) fun w hw i j => ?_
    have h1 := hJ w hw i j
    have h2 := hJ x le_rfl i j
    have h3 := abs_sub_le (prob.jac w i j) (prob.jac xs i j) (prob.jac x i j)
    rw [abs_sub_comm (prob.jac xs i j)] at h3
    linarith
  set z := nlpRows (prob.constr xs) xs with hz
  set B := nlpGrads (prob.jac x) with hB
  set ρ := nlpRows (prob.constr x) x - z - B *ᵥ (x - xs) with hρ
  have hρn : ‖ρ‖ ≤ n * (2 * (L' * e)) * e := by
    refine (pi_norm_le_iff_of_nonneg (by positivity)).2 fun i => ?_
    rcases i with i | i
    · refine le_trans (le_of_eq ?_) ((norm_le_pi_norm _ i).trans hρ1)
      rw [hρ, hB, grads_mulVec]
      rfl
    · have : ρ (Sum.inr i) = 0 := by
        rw [hρ, hB, grads_mulVec]
        show x i - xs i - (x - xs) i = 0
        rw [Pi.sub_apply, sub_self]
      rw [this, norm_zero]; positivity
  -- the gradient of the Lagrangian
  set G : (Fin n → ℝ) → Fin n → ℝ := fun w => prob.costGrad w + (prob.jac w)ᵀ *ᵥ QP.yA ys with hG
  have hs1 : ‖G x - G xs - prob.lagHess xs ys *ᵥ (x - xs)‖ ≤ n * (L' * e) * e :=
    linear_error (F := fun w => prob.lagHess w ys) (by positivity) (fun w hw => (hL w (hin w hw)).2.1) hW
  set s := H *ᵥ (x - xs) - (G x - G xs) with hs
  have hsn : ‖s‖ ≤ n * κ * e + n * (L' * e) * e := by
    have e1 : s = (H - prob.lagHess xs ys) *ᵥ (x - xs) - (G x - G xs - prob.lagHess xs ys *ᵥ (x - xs)) := by rw [hs, sub_mulVec]; abel
    rw [e1]
    refine (norm_sub_le _ _).trans (add_le_add ?_ hs1)
    have := mulVec_le (A := H - prob.lagHess xs ys) hκ0 (fun i j => hH i j) (x - xs)
    rwa [Fintype.card_fin] at this
  have hn0 : (0 : ℝ) ≤ n := Nat.cast_nonneg _
  have he1 : e ≤ 1 := hx.trans hδ1
  have hL1 : 1 ≤ L' := le_max_right _ _
  have hq : e * e ≤ δ := (mul_le_of_le_one_right he0 he1).trans hx
  have hq2 : κ * e ≤ δ := (mul_le_of_le_one_right hκ0 he1).trans hκ
  have hnL : 0 ≤ n * L' := by positivity
  have hρε : ‖ρ‖ ≤ ε := by
    refine hρn.trans (le_trans ?_ hδL)
    nlinarith [mul_le_mul_of_nonneg_left hq hnL]
  have hsε : ‖s‖ ≤ ε := by
    refine hsn.trans (le_trans ?_ hδL)
    have h1 : n * (κ * e) ≤ n * L' * δ := by
      calc n * (κ * e) ≤ n * δ := mul_le_mul_of_nonneg_left hq2 hn0
        _ ≤ n * L' * δ := by rw [mul_assoc]; exact mul_le_mul_of_nonneg_left (le_mul_of_one_le_left hδ0.le hL1) hn0
    nlinarith [mul_le_mul_of_nonneg_left hq hnL]
  have hBε : ∀ i j, |B i j - nlpGrads (prob.jac xs) i j| ≤ ε := by
    intro i j
    rcases i with i | i
    · refine (hJ x le_rfl i j).trans (le_trans ?_ hδL)
      have := mul_le_mul_of_nonneg_left hx hL'0.le
      nlinarith
    · show |(1 : Matrix (Fin n) (Fin n) ℝ) i j - (1 : Matrix (Fin n) (Fin n) ℝ) i j| ≤ ε
      rw [sub_self, abs_zero]; exact hε.le
  obtain ⟨⟨d, hd⟩, hall⟩ := hreg H B ρ (fun i j => (hHδ i j).trans hδε) hBε hρε
  refine ⟨hspd, ?_, fun p y hk => ?_⟩
  · refine (QP.exists_kkt_iff (qp := formQP bd x H (prob.costGrad x) (prob.jac x) (prob.constr x)) hsym).2 ⟨d - (x - xs), formQP_feasible fun i => ?_⟩
    have e1 : nlpRows (prob.constr x) x + nlpGrads (prob.jac x) *ᵥ (d - (x - xs)) = z + ρ + B *ᵥ d := by rw [hρ, hB, mulVec_sub]; abel
    rw [e1]; exact hd i
  · obtain ⟨k1, k2⟩ := (formQP_kkt (xs := xs) z).1 hk
    have hst' : H *ᵥ (x + p - xs) + Bᵀ *ᵥ (y - ys) = s := by
      have e1 : x + p - xs = (x - xs) + p := by abel
      have e2 : prob.costGrad x + Bᵀ *ᵥ ys = G x + QP.yBox ys := by rw [hB, grads_transpose, hG]; simp only [add_assoc]
      have e3 : prob.costGrad xs + (nlpGrads (prob.jac xs))ᵀ *ᵥ ys = G xs + QP.yBox ys := by rw [grads_transpose, hG]; simp only [add_assoc]
      rw [hst] at e3
      rw [e1, mulVec_add, mulVec_sub Bᵀ, hs]
      have e4 : G x - G xs = prob.costGrad x + Bᵀ *ᵥ ys := by
        rw [e2, eq_neg_of_add_eq_zero_left e3.symm]; abel
      rw [e4]
      have e5 : Bᵀ *ᵥ y = -(H *ᵥ p + prob.costGrad x) := eq_neg_of_add_eq_zero_right k1
      rw [e5]; abel
    obtain ⟨b1, b2⟩ := hall s (x + p - xs) y hsε hst' k2
    have hsum : ‖s‖ + ‖ρ‖ ≤ 4 * L' * (n + 1) * (κ + e) * e := by
      have h1 : n * κ * e ≤ L' * (n + 1) * (κ * e) := by
        rw [mul_assoc]
        refine mul_le_mul_of_nonneg_right ?_ (by positivity)
        nlinarith
      have h2 : 0 ≤ L' * (n + 1) * (κ * e) := by positivity
      have h3 : 0 ≤ L' * e * e := by positivity
      have h4 : 0 ≤ n * (L' * e * e) := by positivity
      nlinarith
    have hfin : C * (‖s‖ + ‖ρ‖) ≤ C * (4 * L' * (n + 1)) * (κ + e) * e := by
      refine (mul_le_mul_of_nonneg_left hsum hC.le).trans (le_of_eq ?_)
      ring
    exact ⟨b1.trans hfin, b2.trans hfin⟩

end PolyMPC.Sqp
