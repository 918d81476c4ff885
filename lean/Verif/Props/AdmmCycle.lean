import Verif.Lemmas.AdmmCycle
import Verif.Props.AdmmConvergence

/-!
# Property C188: with `adaptive_rho` ADMM can run forever on a feasible linear program

The program is `min 5 x` subject to `-1 ≤ 2 x ≤ 20` and `0 ≤ x ≤ 10`, with the default settings, `adaptive_rho` switched on
and no initial guess. The step size repeats a cycle of three values with period 75 and no iterate that is tested is
accepted, so `MAX_ITER_EXCEEDED` is returned for every iteration limit. With the default `adaptive_rho = false` the same
call returns `SOLVED` for every large limit (C13).
-/

set_option linter.unusedSectionVars false

namespace PolyMPC.AdmmCycle
open Matrix PolyMPC.Spec PolyMPC.QPBase PolyMPC.Admm

/-- minimise `5 x` subject to `-1 ≤ 2 x ≤ 20`, `0 ≤ x ≤ 10`. -/
def lp : QP ℝ 1 1 where
  H := 0
  h := fun _ => 5
  A := fun _ _ => 2
  Alb := fun _ => -1
  Aub := fun _ => 20
  xlb := fun _ => 0
  xub := fun _ => 10

/-- The default settings of the solver with `adaptive_rho` switched on, and a given iteration limit. -/
noncomputable def adaptive (n : ℤ) : Settings ℝ := { (Settings.default : Settings ℝ) with adaptiveRho := true, maxIter := n }

theorem lp_convex : lp.Convex := ⟨Matrix.transpose_zero, fun x => by simp [lp]⟩

theorem lp_consistent : lp.Consistent := by
  rintro (i | i) <;> simp [lp, QP.lower, QP.upper] <;> norm_num

/-- `x = 0` with the multipliers `0` and `-5` is optimal. -/
theorem lp_kkt : lp.KKT (fun _ => 0) (Sum.elim (fun _ => 0) (fun _ => -5)) := by
  constructor
  · funext i
    simp [QP.lagrangianGradient, lp, QP.yA, QP.yBox, Matrix.mulVec, dotProduct]
  · rintro (i | i)
    · simp [lp, QP.lower, QP.upper, QP.rows, Matrix.mulVec, dotProduct]
    · simp [lp, QP.lower, QP.upper, QP.rows, Matrix.mulVec, dotProduct]

variable {both : Bool} {lin : KktMat ℝ 1 1 → (KktIdx 1 1 → ℝ) → (KktIdx 1 1 → ℝ)} {old : State ℝ 1 1} {n : ℤ}

/-- The scalars of a state. -/
def sc (st : State ℝ 1 1) : Pt := ⟨st.x 0, st.z (Sum.inl 0), st.z (Sum.inr 0), st.y (Sum.inl 0), st.y (Sum.inr 0)⟩

/-- Runs of the solver on `lp` without guess. -/
abbrev Run (both : Bool) (lin : KktMat ℝ 1 1 → (KktIdx 1 1 → ℝ) → (KktIdx 1 1 → ℝ)) (old : State ℝ 1 1) (n : ℤ) :=
  Running both lin Real.sqrt (adaptive n) lp (fun _ => 0) (fun _ => 0) old

theorem classify_row : classify (-1 : ℝ) 20 = .INEQUALITY_CONSTRAINT := by
  unfold classify looseBoundsThresh eqTol; norm_num

theorem classify_box : classify (0 : ℝ) 10 = .INEQUALITY_CONSTRAINT := by
  unfold classify looseBoundsThresh eqTol; norm_num

theorem rho_pos {k : ℕ} {st : State ℝ 1 1} (h : Run both lin old n k st) : 0 < st.rho :=
  rho_pos_running (by norm_num [adaptive, Settings.default]) h

theorem rhoVec_eq {k : ℕ} {st : State ℝ 1 1} (h : Run both lin old n k st) (i : Fin 1 ⊕ Fin 1) : st.rhoVec i = st.rho := by
  have hi := stepInv_running h
  rw [hi.rv, hi.ct, hi.bt]
  rcases i with i | i
  · show rhoEntry (classify (-1 : ℝ) 20) st.rho = _
    rw [classify_row]; rfl
  · show rhoEntry (classify (0 : ℝ) 10) st.rho = _
    rw [classify_box]; rfl

/-- A pass of the solver is a pass of the scalar iteration. -/
theorem pass_admmUpdate (hex : ExactSolver both lin) {k : ℕ} {st : State ℝ 1 1} (h : Run both lin old n k st) :
    Pass st.rho (sc st) (sc (admmUpdate lin (adaptive n) lp st)) := by
  have hi := stepInv_running h
  have hr := rho_pos h
  have hp : ∀ i, 0 < st.rhoVec i := fun i => by rw [rhoVec_eq h]; exact hr
  have hinv : ∀ i, st.rhoInvVec i = (st.rhoVec i)⁻¹ := fun i => by rw [hi.ri]
  have hstep := step_admmUpdate (cfg := adaptive n) (qp := lp) hex lp_convex (by norm_num [adaptive, Settings.default])
    ⟨old.kkt, by rw [hi.fact, hi.kkt]; rfl⟩ hp hinv
  have hone : ∀ i, st.rhoVec i * st.rhoInvVec i = 1 := fun i => by rw [hinv]; exact mul_inv_cancel₀ (hp i).ne'
  set s' := admmUpdate lin (adaptive n) lp st with hs'
  have hx : s'.xTilde 0 = s'.x 0 := by
    have : s'.x 0 = (1 : ℝ) * s'.xTilde 0 + (1 - 1) * st.x 0 := rfl
    rw [this]; ring
  have hA1 : (constructA lp.A *ᵥ s'.xTilde) (Sum.inl 0) = 2 * s'.x 0 := by
    rw [constructA, Matrix.fromRows_mulVec]
    show (lp.A *ᵥ s'.xTilde) 0 = _
    rw [← hx]; simp [lp, Matrix.mulVec, dotProduct]
  have hA2 : (constructA lp.A *ᵥ s'.xTilde) (Sum.inr 0) = s'.x 0 := by
    rw [constructA, Matrix.fromRows_mulVec]
    show ((1 : Matrix (Fin 1) (Fin 1) ℝ) *ᵥ s'.xTilde) 0 = _
    rw [Matrix.one_mulVec, hx]
  have hy : ∀ i, st.rho * s'.z i + s'.y i = st.y i + st.rho * (constructA lp.A *ᵥ s'.xTilde) i := by
    intro i
    have e := hstep.hv i
    have ha : (adaptive n).alpha = 1 := rfl
    rw [rhoVec_eq h, ha] at e
    linarith
  have hv : ∀ i, projArg lin (adaptive n) lp st i = (constructA lp.A *ᵥ s'.xTilde) i + st.y i / st.rho := by
    intro i
    have e1 : s'.y i = st.rhoVec i * (projArg lin (adaptive n) lp st i - s'.z i) := admmUpdate_y (cfg := adaptive n) (lin := lin) (qp := lp) st i (hone i)
    rw [rhoVec_eq h] at e1
    have e2 := hy i
    have e3 : st.rho * (st.y i / st.rho) = st.y i := mul_div_cancel₀ _ hr.ne'
    refine mul_left_cancel₀ hr.ne' ?_
    linear_combination e2 - e1 - e3
  have hz : ∀ i, s'.z i = min (max (projArg lin (adaptive n) lp st i) (lp.lower i)) (lp.upper i) := fun i => admmUpdate_z st i
  constructor
  · have e := hstep.stat 0
    have eT : ∀ w : Fin 1 ⊕ Fin 1 → ℝ, ((constructA lp.A)ᵀ *ᵥ w) 0 = 2 * w (Sum.inl 0) + w (Sum.inr 0) := by
      intro w
      have c1 : constructA lp.A (Sum.inl 0) 0 = 2 := rfl
      have c2 : constructA lp.A (Sum.inr 0) 0 = 1 := by
        show (1 : Matrix (Fin 1) (Fin 1) ℝ) 0 0 = 1
        exact Matrix.one_apply_eq 0
      simp [Matrix.mulVec, dotProduct, Matrix.transpose_apply, c1, c2]
    have eH : (lp.H *ᵥ s'.xTilde) 0 = 0 := by simp [lp]
    have hsg : (adaptive n).sigma = 1 / 1000000 := rfl
    have hh : lp.h 0 = 5 := rfl
    rw [eT, eH, hA1, hA2, rhoVec_eq h, rhoVec_eq h, hx, hsg, hh] at e
    simp only [sc]
    linarith
  · have := hz (Sum.inl 0)
    rw [hv, hA1] at this
    exact this
  · have := hz (Sum.inr 0)
    rw [hv, hA2] at this
    exact this
  · have := hy (Sum.inl 0)
    rw [hA1] at this
    simp only [sc]; linarith
  · have := hy (Sum.inr 0)
    rw [hA2] at this
    simp only [sc]; linarith

/-! ### 25 passes -/

/-- `i` updates of the iterates without any test. -/
noncomputable def upd (lin : KktMat ℝ 1 1 → (KktIdx 1 1 → ℝ) → (KktIdx 1 1 → ℝ)) (n : ℤ) (st : State ℝ 1 1) : ℕ → State ℝ 1 1
  | 0 => st
  | i + 1 => admmUpdate lin (adaptive n) lp (upd lin n st i)

theorem upd_rho (st : State ℝ 1 1) (i : ℕ) : (upd lin n st i).rho = st.rho := by
  induction i with
  | zero => rfl
  | succ i ih => exact ih

theorem check_iff (i : ℕ) : checkNow (adaptive n) (i : ℤ) = true ↔ 25 ∣ i := by
  unfold checkNow
  have h1 : (adaptive n).checkTermination = 25 := rfl
  rw [h1]
  simp only [ne_eq, OfNat.ofNat_ne_zero, not_false_eq_true, decide_true, Bool.true_and, decide_eq_true_eq]
  rw [← Int.dvd_iff_tmod_eq_zero]
  omega

/-- A pass that tests nothing. -/
theorem body_plain {i : ℕ} (hi : ¬ 25 ∣ i) (st : State ℝ 1 1) :
    body lin Real.sqrt (adaptive n) lp (i : ℤ) st = .cont (admmUpdate lin (adaptive n) lp st) := by
  have hc : checkNow (adaptive n) (i : ℤ) = false := by
    rw [← Bool.not_eq_true, check_iff]; exact hi
  have hm : ¬ (i : ℤ).tmod 25 = 0 := by
    rw [← Int.dvd_iff_tmod_eq_zero]; omega
  unfold body
  simp only [hc, Bool.false_and, Bool.false_eq_true, if_false]
  show (if true = true then if (25 : ℤ) = 0 then _ else if (i : ℤ).tmod 25 = 0 then _ else _ else _) = _
  rw [if_pos rfl, if_neg (by norm_num), if_neg hm]

/-- A pass that tests and fails adapts the step size. -/
theorem body_test {i : ℕ} (hi : 25 ∣ i) (st : State ℝ 1 1)
    (ht : terminationCriteria (adaptive n) (residualsUpdate lp (admmUpdate lin (adaptive n) lp st)) = false) :
    body lin Real.sqrt (adaptive n) lp (i : ℤ) st =
      .cont (adaptRho Real.sqrt (adaptive n) (residualsUpdate lp (admmUpdate lin (adaptive n) lp st))) := by
  have hc : checkNow (adaptive n) (i : ℤ) = true := check_iff i |>.mpr hi
  have hm : (i : ℤ).tmod 25 = 0 := by
    rw [← Int.dvd_iff_tmod_eq_zero]; omega
  unfold body
  simp only [hc, if_true, Bool.true_and, ht, Bool.false_eq_true, if_false]
  show (if true = true then if (25 : ℤ) = 0 then _ else if (i : ℤ).tmod 25 = 0 then _ else _ else _) = _
  rw [if_pos rfl, if_neg (by norm_num), if_pos hm]

theorem running_upd {q : ℕ} {st : State ℝ 1 1} (h : Run both lin old n (25 * q) st) (i : ℕ) (hi : i ≤ 24) :
    Run both lin old n (25 * q + i) (upd lin n st i) := by
  induction i with
  | zero => exact h
  | succ i ih =>
    exact Running.cont (ih (by omega)) (body_plain (show ¬ 25 ∣ 25 * q + i + 1 by omega) _)

/-- The scalars of the 25 updates after a test are 25 passes of the scalar iteration. -/
theorem passes (hex : ExactSolver both lin) {q : ℕ} {st : State ℝ 1 1} (h : Run both lin old n (25 * q) st) :
    ∀ i < 25, Pass st.rho (sc (upd lin n st i)) (sc (upd lin n st (i + 1))) := by
  intro i hi
  have := pass_admmUpdate hex (running_upd h i (by omega))
  rw [upd_rho] at this
  exact this

/-- The state that is tested at the end of 25 passes. -/
noncomputable def tested (lin : KktMat ℝ 1 1 → (KktIdx 1 1 → ℝ) → (KktIdx 1 1 → ℝ)) (n : ℤ) (st : State ℝ 1 1) : State ℝ 1 1 :=
  residualsUpdate lp (upd lin n st 25)

theorem next_block {q : ℕ} {st : State ℝ 1 1} (h : Run both lin old n (25 * q) st)
    (ht : terminationCriteria (adaptive n) (tested lin n st) = false) :
    Run both lin old n (25 * (q + 1)) (adaptRho Real.sqrt (adaptive n) (tested lin n st)) := by
  have h24 := running_upd h 24 le_rfl
  have : 25 * (q + 1) = 25 * q + 24 + 1 := by omega
  rw [this]
  exact Running.cont h24 (body_test (show 25 ∣ 25 * q + 24 + 1 by omega) _ ht)

/-! ### Residuals and scales in terms of the scalars -/

theorem infNorm_one (v : Fin 1 → ℝ) : infNorm v = |v 0| := by
  apply le_antisymm
  · rw [infNorm_le_iff]
    exact ⟨abs_nonneg _, fun i => by rw [Subsingleton.elim i 0]⟩
  · exact le_infNorm v 0

theorem infNorm_two (v : Fin 1 ⊕ Fin 1 → ℝ) : infNorm v = max |v (Sum.inl 0)| |v (Sum.inr 0)| := by
  have : v = Sum.elim (fun i => v (Sum.inl i)) (fun i => v (Sum.inr i)) := by funext i; rcases i with i | i <;> rfl
  conv_lhs => rw [this]
  rw [infNorm_sumElim, infNorm_one, infNorm_one]

theorem rows_inl (x : Fin 1 → ℝ) : lp.rows x (Sum.inl 0) = 2 * x 0 := by
  simp [QP.rows, lp, Matrix.mulVec, dotProduct]

theorem resPrim_eq (st : State ℝ 1 1) :
    (residualsUpdate lp st).info.resPrim = max |2 * (sc st).x - (sc st).z1| |(sc st).x - (sc st).z2| := by
  rw [residualsUpdate_resPrim, infNorm_two]
  simp only [Pi.sub_apply, rows_inl]
  rfl

theorem AT_yA (st : State ℝ 1 1) : (lp.Aᵀ *ᵥ QP.yA st.y) 0 = 2 * (sc st).y1 := by
  have c1 : lp.A 0 0 = 2 := rfl
  simp [Matrix.mulVec, dotProduct, Matrix.transpose_apply, c1, QP.yA, sc]

theorem resDual_eq (st : State ℝ 1 1) : (residualsUpdate lp st).info.resDual = |(sc st).s| := by
  rw [residualsUpdate_resDual, infNorm_one]
  congr 1
  have e1 : (lp.H *ᵥ st.x) 0 = 0 := by simp [lp]
  have e2 : (lp.Aᵀ *ᵥ QP.yA st.y) 0 = 2 * (sc st).y1 := AT_yA st
  show (lp.H *ᵥ st.x) 0 + 5 + (lp.Aᵀ *ᵥ QP.yA st.y) 0 + (sc st).y2 = _
  rw [e1, e2, Pt.s]; ring

theorem maxAxZ_eq (st : State ℝ 1 1) :
    (residualsUpdate lp st).maxAxZ = max (max |2 * (sc st).x| |(sc st).x|) (max |(sc st).z1| |(sc st).z2|) := by
  rw [residualsUpdate_maxAxZ, primalScale, infNorm_two, infNorm_two, rows_inl]
  rfl

theorem maxHxATyh_eq (st : State ℝ 1 1) :
    (residualsUpdate lp st).maxHxATyh = max 0 (max |2 * (sc st).y1| (max 5 |(sc st).y2|)) := by
  rw [residualsUpdate_maxHxATyh, dualScale, infNorm_one, infNorm_one, infNorm_one, infNorm_one]
  have e1 : (lp.H *ᵥ st.x) 0 = 0 := by simp [lp]
  have e2 := AT_yA st
  have e3 : |lp.h 0| = 5 := by show |(5 : ℝ)| = 5; norm_num
  rw [e1, e2, e3, abs_zero]
  rfl

theorem sc_adaptRho (st : State ℝ 1 1) : sc (adaptRho Real.sqrt (adaptive n) st) = sc st := by
  obtain ⟨h1, h2, h3, _⟩ := sameIter_adaptRho (sq := Real.sqrt) (cfg := adaptive n) st
  unfold sc
  rw [h1, h2, h3]

theorem adaptRho_new {st : State ℝ 1 1} (h : clampRho (estimateRho Real.sqrt st st.rho) < st.rho / 5 ∨ clampRho (estimateRho Real.sqrt st st.rho) > st.rho * 5) :
    (adaptRho Real.sqrt (adaptive n) st).rho = clampRho (estimateRho Real.sqrt st st.rho) := by
  have h' : clampRho (estimateRho Real.sqrt st st.rho) < st.rho / (adaptive n).adaptiveRhoTolerance ∨
      clampRho (estimateRho Real.sqrt st st.rho) > st.rho * (adaptive n).adaptiveRhoTolerance := h
  unfold adaptRho
  simp only [if_pos h']
  rfl

/-- Test and new step size at a stalling point. -/
theorem stalled {st : State ℝ 1 1} (hl : (sc st).Low) (he : |(sc st).e| ≤ 1 / 2000) (hs : |(sc st).s| ≤ 1 / 1000000000)
    (hd0 : 0 ≤ (sc st).d) (hd : (sc st).d ≤ 3) :
    terminationCriteria (adaptive n) (residualsUpdate lp st) = false ∧
    ∃ r, |r - 2 / 5| = |(sc st).e| ∧ estimateRho Real.sqrt (residualsUpdate lp st) st.rho =
      st.rho * Real.sqrt (r / (1 + 1 / 1000000000) / (|(sc st).s| / (5 + 1 / 1000000000) + 1 / 1000000000)) := by
  have e0 := abs_le.mp he
  have s0 := abs_le.mp hs
  have hx : (sc st).x = (sc st).e - 2 / 5 := by unfold Pt.e; ring
  have r : (residualsUpdate lp st).info.resPrim = 2 / 5 - (sc st).e := by
    rw [resPrim_eq, hl.1, hl.2, hx, abs_of_nonneg (by linarith), abs_of_nonpos (by linarith), max_eq_right (by linarith)]
    ring
  have m1 : (residualsUpdate lp st).maxAxZ = 1 := by
    rw [maxAxZ_eq, hl.1, hl.2, hx, abs_of_nonpos (by linarith), abs_of_nonpos (by linarith)]
    have : max |(-1 : ℝ)| |(0 : ℝ)| = 1 := by norm_num
    rw [this]
    exact max_eq_right (max_le (by linarith) (by linarith))
  have m2 : (residualsUpdate lp st).maxHxATyh = 5 := by
    rw [maxHxATyh_eq, y1_eq, y2_eq, max_eq_right (le_max_of_le_right (le_max_of_le_left (by norm_num)))]
    have a1 : |2 * ((2 * ((sc st).s - 5) + (sc st).d) / 5)| ≤ 5 := by rw [abs_le]; constructor <;> linarith
    have a2 : |((sc st).s - 5 - 2 * (sc st).d) / 5| ≤ 5 := by rw [abs_le]; constructor <;> linarith
    rw [max_eq_left a2, max_eq_right a1]
  refine ⟨?_, 2 / 5 - (sc st).e, ?_, ?_⟩
  · unfold terminationCriteria epsPrim
    rw [r, m1]
    have : ¬ 2 / 5 - (sc st).e ≤ (adaptive n).epsAbs + (adaptive n).epsRel * 1 := by
      norm_num [adaptive, Settings.default]; linarith
    rw [decide_eq_false this, Bool.false_and]
  · rw [show 2 / 5 - (sc st).e - 2 / 5 = -(sc st).e by ring, abs_neg]
  · unfold estimateRho divByZeroRegul
    rw [r, m1, m2, resDual_eq]

/-- Test and new step size at a point without active constraints. -/
theorem lost {st : State ℝ 1 1} (hz1 : (sc st).z1 = 2 * (sc st).x) (hz2 : (sc st).z2 = (sc st).x) (hy1 : (sc st).y1 = 0) (hy2 : (sc st).y2 = 0) :
    terminationCriteria (adaptive n) (residualsUpdate lp st) = false ∧ estimateRho Real.sqrt (residualsUpdate lp st) st.rho = 0 := by
  have r : (residualsUpdate lp st).info.resPrim = 0 := by
    rw [resPrim_eq, hz1, hz2]; simp
  have d : (residualsUpdate lp st).info.resDual = 5 := by
    rw [resDual_eq, Pt.s, hy1, hy2]; norm_num
  have m2 : (residualsUpdate lp st).maxHxATyh = 5 := by
    rw [maxHxATyh_eq, hy1, hy2]; norm_num
  constructor
  · unfold terminationCriteria epsDual
    rw [d, m2]
    have : ¬ (5 : ℝ) ≤ (adaptive n).epsAbs + (adaptive n).epsRel * 5 := by
      norm_num [adaptive, Settings.default]
    simp [this]
  · unfold estimateRho
    rw [r]; simp

theorem clamp_id {r : ℝ} (h1 : 1 / 1000000 ≤ r) (h2 : r ≤ 1000000) : clampRho r = r := by
  unfold clampRho rhoMin rhoMax
  rw [min_eq_left h2, max_eq_right h1]

theorem clamp_zero : clampRho (0 : ℝ) = 1 / 1000000 := by
  unfold clampRho rhoMin rhoMax; norm_num

/-! ### The cycle -/

/-- The kinds of states from which 25 passes start. -/
inductive Kind
  | first | big | tiny | stall
  deriving DecidableEq

/-- The kind of the next 25 passes. -/
def Kind.next : Kind → Kind
  | .first => .big
  | .big => .tiny
  | .tiny => .stall
  | .stall => .big

/-- The kind of the `q`-th block of 25 passes. -/
def kind : ℕ → Kind
  | 0 => .first
  | q + 1 => (kind q).next

/-- The states from which 25 passes start. -/
inductive Start : Kind → State ℝ 1 1 → Prop
  | first {st : State ℝ 1 1} (hr : st.rho = 1 / 10) (h : sc st = ⟨0, 0, 0, 0, 0⟩) : Start .first st
  | big {st : State ℝ 1 1} (hr : 350 ≤ st.rho) (hr1 : st.rho ≤ 2100) (hl : (sc st).Low) (he : |(sc st).e| ≤ 1 / 10000000) (hs : |(sc st).s| ≤ 1 / 1000000000000)
    (hd0 : 0 ≤ (sc st).d) (hd : (sc st).d ≤ 3) : Start .big st
  | tiny {st : State ℝ 1 1} (hr : st.rho = 1 / 1000000) (h0 : 0 ≤ (sc st).x) (h1 : (sc st).x ≤ 1) (hz1 : (sc st).z1 = 2 * (sc st).x) (hz2 : (sc st).z2 = (sc st).x)
    (hy1 : (sc st).y1 = 0) (hy2 : (sc st).y2 = 0) : Start .tiny st
  | stall {st : State ℝ 1 1} (hr : 9 / 500 ≤ st.rho) (hr1 : st.rho ≤ 201 / 10000) (hl : (sc st).Low) (he : |(sc st).e| ≤ 1 / 2000) (hs : |(sc st).s| ≤ 1 / 1000000000)
    (hd : (sc st).d = 1 / 40000) : Start .stall st

/-- From a sharp stalling point the step size becomes large. -/
theorem to_big {st : State ℝ 1 1} (hr : 9 / 500 ≤ st.rho) (hr1 : st.rho ≤ 1 / 10) (hl : (sc st).Low) (he : |(sc st).e| ≤ 1 / 10000000) (hs : |(sc st).s| ≤ 1 / 1000000000000)
    (hd0 : 0 ≤ (sc st).d) (hd : (sc st).d ≤ 3) :
    terminationCriteria (adaptive n) (residualsUpdate lp st) = false ∧ Start .big (adaptRho Real.sqrt (adaptive n) (residualsUpdate lp st)) := by
  obtain ⟨ht, r, h1, h2⟩ := stalled (n := n) hl (he.trans (by norm_num)) (hs.trans (by norm_num)) hd0 hd
  refine ⟨ht, ?_⟩
  obtain ⟨f1, f2⟩ := factor_sharp (h1.le.trans he) (abs_nonneg _) hs
  set F := Real.sqrt (r / (1 + 1 / 1000000000) / (|(sc st).s| / (5 + 1 / 1000000000) + 1 / 1000000000)) with hF
  have b1 : 350 ≤ st.rho * F := by nlinarith
  have b2 : st.rho * F ≤ 2100 := by nlinarith
  have hc : clampRho (estimateRho Real.sqrt (residualsUpdate lp st) (residualsUpdate lp st).rho) = st.rho * F := by
    show clampRho (estimateRho Real.sqrt (residualsUpdate lp st) st.rho) = _
    rw [h2, clamp_id (by linarith) (by linarith)]
  have hn := adaptRho_new (n := n) (st := residualsUpdate lp st) (by right; rw [hc]; show st.rho * 5 < _; linarith)
  rw [hc] at hn
  have hsc : sc (adaptRho Real.sqrt (adaptive n) (residualsUpdate lp st)) = sc st := sc_adaptRho _
  exact .big (by rw [hn]; exact b1) (by rw [hn]; exact b2) (by rw [hsc]; exact hl) (by rw [hsc]; exact he) (by rw [hsc]; exact hs) (by rw [hsc]; exact hd0) (by rw [hsc]; exact hd)

/-- From a point without active constraints the step size becomes the smallest one. -/
theorem to_tiny {st : State ℝ 1 1} (hr : 350 ≤ st.rho) (a1 : 0 ≤ (sc st).x) (a2 : (sc st).x ≤ 1) (a3 : (sc st).z1 = 2 * (sc st).x) (a4 : (sc st).z2 = (sc st).x)
    (a5 : (sc st).y1 = 0) (a6 : (sc st).y2 = 0) :
    terminationCriteria (adaptive n) (residualsUpdate lp st) = false ∧ Start .tiny (adaptRho Real.sqrt (adaptive n) (residualsUpdate lp st)) := by
  obtain ⟨ht, h2⟩ := lost (n := n) a3 a4 a5 a6
  refine ⟨ht, ?_⟩
  have hc : clampRho (estimateRho Real.sqrt (residualsUpdate lp st) (residualsUpdate lp st).rho) = 1 / 1000000 := by
    show clampRho (estimateRho Real.sqrt (residualsUpdate lp st) st.rho) = _
    rw [h2, clamp_zero]
  have hn := adaptRho_new (n := n) (st := residualsUpdate lp st) (by left; rw [hc]; show _ < st.rho / 5; linarith)
  rw [hc] at hn
  have hsc : sc (adaptRho Real.sqrt (adaptive n) (residualsUpdate lp st)) = sc st := sc_adaptRho _
  exact .tiny hn (by rw [hsc]; exact a1) (by rw [hsc]; exact a2) (by rw [hsc]; exact a3) (by rw [hsc]; exact a4) (by rw [hsc]; exact a5) (by rw [hsc]; exact a6)

/-- From a blunt stalling point with the smallest step size the step size becomes moderate. -/
theorem to_stall {st : State ℝ 1 1} (hr : st.rho = 1 / 1000000) (a : (sc st).Low) (b : (sc st).d = 1 / 40000) (c : |(sc st).e| ≤ 1 / 2000) (d : |(sc st).s| ≤ 1 / 1000000000) :
    terminationCriteria (adaptive n) (residualsUpdate lp st) = false ∧ Start .stall (adaptRho Real.sqrt (adaptive n) (residualsUpdate lp st)) := by
  obtain ⟨ht, r, e1, e2⟩ := stalled (n := n) a c d (by rw [b]; norm_num) (by rw [b]; norm_num)
  refine ⟨ht, ?_⟩
  obtain ⟨f1, f2⟩ := factor (e1.le.trans c) (abs_nonneg _) d
  rw [hr] at e2
  set F := Real.sqrt (r / (1 + 1 / 1000000000) / (|(sc st).s| / (5 + 1 / 1000000000) + 1 / 1000000000)) with hF
  have hc : clampRho (estimateRho Real.sqrt (residualsUpdate lp st) (residualsUpdate lp st).rho) = 1 / 1000000 * F := by
    show clampRho (estimateRho Real.sqrt (residualsUpdate lp st) st.rho) = _
    rw [hr, e2, clamp_id (by linarith) (by linarith)]
  have hn := adaptRho_new (n := n) (st := residualsUpdate lp st) (by right; rw [hc]; show st.rho * 5 < _; rw [hr]; linarith)
  rw [hc] at hn
  have hsc : sc (adaptRho Real.sqrt (adaptive n) (residualsUpdate lp st)) = sc st := sc_adaptRho _
  exact .stall (by rw [hn]; linarith) (by rw [hn]; linarith) (by rw [hsc]; exact a) (by rw [hsc]; exact c) (by rw [hsc]; exact d) (by rw [hsc]; exact b)

/-- 25 scalar passes from a start of the cycle lead to a state with a failed test and another start of the cycle. -/
theorem start_block {st s : State ℝ 1 1} {f : ℕ → Pt} {κ : Kind} (hst : Start κ st) (hf : ∀ i < 25, Pass st.rho (f i) (f (i + 1))) (h0 : f 0 = sc st) (h25 : f 25 = sc s)
    (hrho : s.rho = st.rho) :
    terminationCriteria (adaptive n) (residualsUpdate lp s) = false ∧ Start κ.next (adaptRho Real.sqrt (adaptive n) (residualsUpdate lp s)) := by
  cases hst with
  | first hr hsc =>
    rw [hr] at hf
    obtain ⟨a, b, c, d⟩ := first_phase hf (h0.trans hsc)
    rw [h25] at a b c d
    exact to_big (by rw [hrho, hr]; norm_num) (by rw [hrho, hr]) a b c (by rw [d]; norm_num) (by rw [d]; norm_num)
  | stall hr hr1 hl he hs hd =>
    rw [← h0] at hl he hs hd
    obtain ⟨a, b, c, d⟩ := stall_phase (m := 23) hr hf hl he hs (by rw [hd]; norm_num) (by rw [hd]; push_cast; linarith)
    rw [show 23 + 2 = 25 from rfl, h25] at a b c d
    rw [hd] at d
    push_cast at d
    exact to_big (by rw [hrho]; exact hr) (by rw [hrho]; linarith) a b c (by rw [d]; linarith) (by rw [d]; linarith)
  | big hr hr1 hl he hs hd0 hd =>
    rw [← h0] at hl he hs hd0 hd
    obtain ⟨a1, a2, a3, a4, a5, a6⟩ := big_phase hr (hr1.trans (by norm_num)) hf hl he hs hd0 hd
    rw [h25] at a1 a2 a3 a4 a5 a6
    exact to_tiny (by rw [hrho]; exact hr) a1 a2 a3 a4 a5 a6
  | tiny hr x0 x1 hz1 hz2 hy1 hy2 =>
    rw [hr] at hf
    rw [← h0] at x0 x1 hz1 hz2 hy1 hy2
    obtain ⟨a, b, c, d⟩ := tiny_phase hf x0 x1 hz1 hz2 hy1 hy2
    rw [h25] at a b c d
    exact to_stall (hrho.trans hr) a b c d

/-- Every block of 25 passes ends with a failed test and leads to another start of the cycle. -/
theorem start_next (hex : ExactSolver both lin) {q : ℕ} {st : State ℝ 1 1} (h : Run both lin old n (25 * q) st) {κ : Kind} (hst : Start κ st) :
    terminationCriteria (adaptive n) (tested lin n st) = false ∧ Start κ.next (adaptRho Real.sqrt (adaptive n) (tested lin n st)) :=
  start_block (f := fun i => sc (upd lin n st i)) hst (passes hex h) rfl rfl (upd_rho st 25)

theorem start_running (hex : ExactSolver both lin) (q : ℕ) : ∃ st, Run both lin old n (25 * q) st ∧ Start (kind q) st := by
  induction q with
  | zero =>
    refine ⟨_, Running.init, .first rfl ?_⟩
    simp [sc, setup, factorise, rhoVecUpdate, Matrix.mulVec, dotProduct]
  | succ q ih =>
    obtain ⟨st, h, hst⟩ := ih
    obtain ⟨ht, hn⟩ := start_next hex h hst
    exact ⟨_, next_block h ht, hn⟩

/-- A run is determined by the number of passes. -/
theorem run_unique {k : ℕ} {s t : State ℝ 1 1} (hs : Run both lin old n k s) (ht : Run both lin old n k t) : s = t := by
  induction k generalizing s t with
  | zero => cases hs; cases ht; rfl
  | succ k ih =>
    cases hs with
    | cont h1 b1 =>
      cases ht with
      | cont h2 b2 =>
        have := ih h1 h2
        subst this
        rw [b1] at b2
        injection b2

/-- C188 (runs forever). With `adaptive_rho` the solver returns MAX_ITER_EXCEEDED on this linear program for every iteration
limit, with an exact linear solver and whatever the object did before. -/
theorem adaptive_never_solved (hex : ExactSolver both lin) (old : State ℝ 1 1) (n : ℤ) :
    ∃ st, solveCold both lin Real.sqrt (adaptive n) lp old = some st ∧ st.info.status = .MAX_ITER_EXCEEDED := by
  obtain ⟨st, hst⟩ := Option.isSome_iff_exists.mp (solve_defined (both := both) (lin := lin) (sq := Real.sqrt)
    (cfg := adaptive n) (qp := lp) (xg := fun _ => 0) (yg := fun _ => 0) (old := old) (Or.inr (by norm_num [adaptive, Settings.default])))
  refine ⟨st, hst, ?_⟩
  rcases solve_cases hst with ⟨j, s, s', hr, hb, _, rfl⟩ | ⟨s, _, rfl⟩
  · exfalso
    obtain ⟨hc, -, ht⟩ := brk_spec hb
    rw [check_iff] at hc
    obtain ⟨q, hq⟩ := hc
    obtain ⟨q', rfl⟩ : ∃ q', q = q' + 1 := ⟨q - 1, by omega⟩
    obtain rfl : j = 25 * q' + 24 := by omega
    obtain ⟨s0, h0, hs0⟩ := start_running (n := n) (old := old) hex q'
    have e := run_unique hr (running_upd h0 24 le_rfl)
    subst e
    have := (start_next hex h0 hs0).1
    have e2 : tested lin n s0 = residualsUpdate lp (admmUpdate lin (adaptive n) lp (upd lin n s0 24)) := rfl
    rw [e2, ht] at this
    exact absurd this (by simp)
  · rfl

/-- C188 (what is returned). With the default limit of 1000 iterations the returned point is `-2/5` up to `1e-7`: it violates the
bound `0 ≤ x` of the only variable by `0.4`. -/
theorem adaptive_returns_infeasible (hex : ExactSolver both lin) (old : State ℝ 1 1) :
    ∃ st, solveCold both lin Real.sqrt { (Settings.default : Settings ℝ) with adaptiveRho := true } lp old = some st ∧
      st.info.status = .MAX_ITER_EXCEEDED ∧ |st.x 0 + 2 / 5| ≤ 1 / 10 ^ 7 ∧ ¬ lp.Feasible st.x := by
  obtain ⟨st, hst, hs⟩ := adaptive_never_solved hex old 1000
  have hx : |st.x 0 + 2 / 5| ≤ 1 / 10 ^ 7 := by
    rcases solve_cases hst with ⟨j, s, s', hr, hb, _, rfl⟩ | ⟨s, hr, rfl⟩
    · obtain ⟨-, h, -⟩ := brk_spec hb
      rw [h] at hs
      cases hs
    · obtain ⟨s0, h0, hs0⟩ := start_running (n := 1000) (old := old) hex 40
      have e : s = s0 := run_unique hr h0
      subst e
      have hk : kind 40 = .big := by decide
      rw [hk] at hs0
      cases hs0 with
      | big _ _ _ he _ _ _ =>
        have he : |s.x 0 + 2 / 5| ≤ 1 / 10000000 := he
        exact he.trans (by norm_num)
  refine ⟨st, hst, hs, hx, fun hf => ?_⟩
  have h1 := (hf.2 0).1
  have h1 : 0 ≤ st.x 0 := h1
  have := (abs_le.mp hx).2
  norm_num at this
  linarith

/-- C188 (contrast). With the default `adaptive_rho = false` the same program is solved for every large iteration limit. -/
theorem fixed_solved (hex : ExactSolver both lin) (old : State ℝ 1 1) :
    ∃ m : ℤ, ∀ maxIter ≥ m, ∃ st, solveCold both lin Real.sqrt { (Settings.default : Settings ℝ) with maxIter := maxIter } lp old = some st ∧
      st.info.status = .SOLVED :=
  eventually_solved (cfg := Settings.default) hex lp_convex ⟨_, _, lp_kkt⟩ (by norm_num [Settings.default]) (by norm_num [Settings.default])
    (by norm_num [Settings.default]) (by norm_num [Settings.default]) rfl (by norm_num [Settings.default]) (by norm_num [Settings.default])
    (by norm_num [Settings.default])

/-! ## Non-vacuity -/

/-- There are exact linear solvers. -/
example : ∃ lin : KktMat ℝ 1 1 → (KktIdx 1 1 → ℝ) → (KktIdx 1 1 → ℝ), ExactSolver true lin :=
  ⟨fun A b => (effective true A)⁻¹ *ᵥ b, fun A b hdet => by
    rw [Matrix.mulVec_mulVec, Matrix.mul_nonsing_inv _ (isUnit_iff_ne_zero.mpr hdet), Matrix.one_mulVec]⟩

/-- `0` is a feasible point, so the program has a solution the solver misses. -/
example : lp.Feasible fun _ => 0 :=
  ⟨fun i => by simp [lp, Matrix.mulVec, dotProduct], fun i => by simp [lp]⟩

end PolyMPC.AdmmCycle
