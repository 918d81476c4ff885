import Verif.Props.AdmmCycle
import Verif.Props.BoxAdmmAdaptive

/-!
# Property C199: with `adaptive_rho` boxADMM can run forever on a feasible linear program

The program of C188, `min 5 x` subject to `-1 ≤ 2 x ≤ 20` and `0 ≤ x ≤ 10`, with the default settings, `adaptive_rho`
switched on and no initial guess.
-/

set_option linter.unusedSectionVars false

namespace PolyMPC.BoxAdmmCycle
open Matrix PolyMPC.Spec PolyMPC.QPBase PolyMPC.BoxAdmm
open PolyMPC.AdmmCycle (Pt Pass lp adaptive lp_convex lp_kkt lp_consistent classify_row classify_box infNorm_one rows_inl y1_eq y2_eq Kind kind)

variable {both : Bool} {lin : KktMat ℝ 1 1 → (KktIdx 1 1 → ℝ) → (KktIdx 1 1 → ℝ)} {old : State ℝ 1 1} {n : ℤ}

/-- The scalars of a state. -/
def sc (st : State ℝ 1 1) : Pt := ⟨st.x 0, st.z 0, st.q 0, st.y (Sum.inl 0), st.y (Sum.inr 0)⟩

/-- Runs of the solver on `lp` without guess. -/
abbrev Run (both : Bool) (lin : KktMat ℝ 1 1 → (KktIdx 1 1 → ℝ) → (KktIdx 1 1 → ℝ)) (old : State ℝ 1 1) (n : ℤ) :=
  Running both lin Real.sqrt (adaptive n) lp (fun _ => 0) (fun _ => 0) old

theorem cfg_rho : (0 : ℝ) < (adaptive n).rho := by norm_num [adaptive, Settings.default]
theorem cfg_sigma : (0 : ℝ) < (adaptive n).sigma := by norm_num [adaptive, Settings.default]

theorem rho_pos {k : ℕ} {st : State ℝ 1 1} (h : Run both lin old n k st) : 0 < st.rho := rho_pos_running cfg_rho h

theorem steps_eq {k : ℕ} {st : State ℝ 1 1} (h : Run both lin old n k st) (i : Fin 1 ⊕ Fin 1) : st.steps i = st.rho := by
  have hi := stepInv_running h
  rcases i with i | i
  · show st.rhoVec i = _
    rw [hi.rv, hi.ct]
    show rhoEntry (classify (-1 : ℝ) 20) st.rho = _
    rw [classify_row]; rfl
  · show st.rhoVecBox i = _
    rw [hi.rb, hi.bt]
    show rhoEntry (classify (0 : ℝ) 10) st.rho = _
    rw [classify_box]; rfl

/-- A pass of the solver is a pass of the scalar iteration. -/
theorem pass_admmUpdate (hex : ExactSolver both lin) {k : ℕ} {st : State ℝ 1 1} (h : Run both lin old n k st) :
    Pass st.rho (sc st) (sc (admmUpdate lin (adaptive n) lp st)) := by
  have hr := rho_pos h
  have hstep := step_box hex lp_convex cfg_sigma cfg_rho rfl (fun i j hij => absurd (Subsingleton.elim i j) hij) h
  have hi := stepInv_running h
  set s' := admmUpdate lin (adaptive n) lp st with hs'
  have hA1 : (Admm.constructA lp.A *ᵥ s'.x) (Sum.inl 0) = 2 * s'.x 0 := by
    rw [stacked_mulVec]
    simp [lp, Matrix.mulVec, dotProduct]
  have hA2 : (Admm.constructA lp.A *ᵥ s'.x) (Sum.inr 0) = s'.x 0 := by
    rw [stacked_mulVec]; rfl
  have hy : ∀ i, st.rho * s'.aux i + s'.y i = st.y i + st.rho * (Admm.constructA lp.A *ᵥ s'.x) i := by
    intro i
    have e := hstep.hv i
    have ha : (adaptive n).alpha = 1 := rfl
    rw [steps_eq h, ha] at e
    linarith
  have e1 : ∀ i, s'.z i = min (max (2 * s'.x i + st.y (Sum.inl i) / st.rho) (-1)) 20 := by
    intro i
    obtain rfl : i = 0 := Subsingleton.elim i 0
    have r := steps_eq h (Sum.inl 0)
    have r : st.rhoVec 0 = st.rho := r
    have hone : st.rhoVec 0 * st.rhoInvVec 0 = 1 := by rw [hi.ri]; simp only [r]; exact mul_inv_cancel₀ hr.ne'
    have a1 : s'.y (Sum.inl 0) = st.rhoVec 0 * (projArg lin (adaptive n) lp st 0 - s'.z 0) := admmUpdate_yA st 0 hone
    rw [r] at a1
    have a2 := hy (Sum.inl 0)
    rw [hA1] at a2
    have a2 : st.rho * s'.z 0 + s'.y (Sum.inl 0) = st.y (Sum.inl 0) + st.rho * (2 * s'.x 0) := a2
    have a3 : st.rho * (st.y (Sum.inl 0) / st.rho) = st.y (Sum.inl 0) := mul_div_cancel₀ _ hr.ne'
    have a4 : projArg lin (adaptive n) lp st 0 = 2 * s'.x 0 + st.y (Sum.inl 0) / st.rho := by
      refine mul_left_cancel₀ hr.ne' ?_
      linear_combination a2 - a1 - a3
    rw [← a4]
    exact admmUpdate_z st 0
  have e2 : ∀ i, s'.q i = min (max (s'.x i + st.y (Sum.inr i) / st.rho) 0) 10 := by
    intro i
    have r := steps_eq h (Sum.inr i)
    have r : st.rhoVecBox i = st.rho := r
    have a4 : projArgBox lin (adaptive n) lp st i = s'.x i + st.y (Sum.inr i) / st.rho := by
      show s'.x i + st.rhoVecBoxInv i * st.y (Sum.inr i) = _
      rw [hi.rbi]; simp only [r]; rw [div_eq_inv_mul]
    rw [← a4]
    exact admmUpdate_q st i
  constructor
  · have e := hstep.stat 0
    have eT : ∀ w : Fin 1 ⊕ Fin 1 → ℝ, ((Admm.constructA lp.A)ᵀ *ᵥ w) 0 = 2 * w (Sum.inl 0) + w (Sum.inr 0) := by
      intro w
      have c1 : lp.A 0 0 = 2 := rfl
      rw [stacked_transpose]
      simp [Matrix.mulVec, dotProduct, Matrix.transpose_apply, c1, headM, tailN]
    have eH : (lp.H *ᵥ s'.x) 0 = 0 := by simp [lp]
    have hsg : (adaptive n).sigma = 1 / 1000000 := rfl
    have hh : lp.h 0 = 5 := rfl
    rw [eT, eH, hA1, hA2, steps_eq h, steps_eq h, hsg, hh] at e
    have z1 : st.aux (Sum.inl 0) = st.z 0 := rfl
    have z2 : st.aux (Sum.inr 0) = st.q 0 := rfl
    rw [z1, z2] at e
    simp only [sc]
    linarith
  · exact e1 0
  · exact e2 0
  · have := hy (Sum.inl 0)
    rw [hA1] at this
    have this : st.rho * s'.z 0 + s'.y (Sum.inl 0) = st.y (Sum.inl 0) + st.rho * (2 * s'.x 0) := this
    simp only [sc]; linarith
  · have := hy (Sum.inr 0)
    rw [hA2] at this
    have this : st.rho * s'.q 0 + s'.y (Sum.inr 0) = st.y (Sum.inr 0) + st.rho * s'.x 0 := this
    simp only [sc]; linarith

/-! ### 25 passes -/

/-- `i` updates of the iterates without any test. -/
noncomputable def upd (lin : KktMat ℝ 1 1 → (KktIdx 1 1 → ℝ) → (KktIdx 1 1 → ℝ)) (n : ℤ) (st : State ℝ 1 1) : ℕ → State ℝ 1 1
  | 0 => st
  | i + 1 => admmUpdate lin (adaptive n) lp (upd lin n st i)

theorem upd_rho (st : State ℝ 1 1) (i : ℕ) : (upd lin n st i).rho = st.rho := by
  induction i with
  | zero => rfl
  | succ i ih => exact ih

theorem check_iff (i : ℕ) : checkNow (adaptive n) (i : ℤ) = true ↔ 25 ∣ i := by
  unfold checkNow
  have h1 : (adaptive n).checkTermination = 25 := rfl
  rw [h1]
  simp only [ne_eq, OfNat.ofNat_ne_zero, not_false_eq_true, decide_true, Bool.true_and, decide_eq_true_eq]
  rw [← Int.dvd_iff_tmod_eq_zero]
  omega

/-- A pass that tests nothing. -/
theorem body_plain {i : ℕ} (hi : ¬ 25 ∣ i) (st : State ℝ 1 1) :
    body lin Real.sqrt (adaptive n) lp (i : ℤ) st = .cont (admmUpdate lin (adaptive n) lp st) := by
  have hc : checkNow (adaptive n) (i : ℤ) = false := by
    rw [← Bool.not_eq_true, check_iff]; exact hi
  have hm : ¬ (i : ℤ).tmod 25 = 0 := by
    rw [← Int.dvd_iff_tmod_eq_zero]; omega
  unfold body
  simp only [hc, Bool.false_and, Bool.false_eq_true, if_false]
  show (if true = true then if (25 : ℤ) = 0 then _ else if (i : ℤ).tmod 25 = 0 then _ else _ else _) = _
  rw [if_pos rfl, if_neg (by norm_num), if_neg hm]

/-- A pass that tests and fails adapts the step size. -/
theorem body_test {i : ℕ} (hi : 25 ∣ i) (st : State ℝ 1 1)
    (ht : terminationCriteria (adaptive n) (residualsUpdate lp (admmUpdate lin (adaptive n) lp st)) = false) :
    body lin Real.sqrt (adaptive n) lp (i : ℤ) st =
      .cont (adaptRho Real.sqrt (adaptive n) (residualsUpdate lp (admmUpdate lin (adaptive n) lp st))) := by
  have hc : checkNow (adaptive n) (i : ℤ) = true := check_iff i |>.mpr hi
  have hm : (i : ℤ).tmod 25 = 0 := by
    rw [← Int.dvd_iff_tmod_eq_zero]; omega
  unfold body
  simp only [hc, if_true, Bool.true_and, ht, Bool.false_eq_true, if_false]
  show (if true = true then if (25 : ℤ) = 0 then _ else if (i : ℤ).tmod 25 = 0 then _ else _ else _) = _
  rw [if_pos rfl, if_neg (by norm_num), if_pos hm]

theorem running_upd {q : ℕ} {st : State ℝ 1 1} (h : Run both lin old n (25 * q) st) (i : ℕ) (hi : i ≤ 24) :
    Run both lin old n (25 * q + i) (upd lin n st i) := by
  induction i with
  | zero => exact h
  | succ i ih =>
    exact Running.cont (ih (by omega)) (body_plain (show ¬ 25 ∣ 25 * q + i + 1 by omega) _)

/-- The scalars of the 25 updates after a test are 25 passes of the scalar iteration. -/
theorem passes (hex : ExactSolver both lin) {q : ℕ} {st : State ℝ 1 1} (h : Run both lin old n (25 * q) st) :
    ∀ i < 25, Pass st.rho (sc (upd lin n st i)) (sc (upd lin n st (i + 1))) := by
  intro i hi
  have := pass_admmUpdate hex (running_upd h i (by omega))
  rw [upd_rho] at this
  exact this

/-- The state that is tested at the end of 25 passes. -/
noncomputable def tested (lin : KktMat ℝ 1 1 → (KktIdx 1 1 → ℝ) → (KktIdx 1 1 → ℝ)) (n : ℤ) (st : State ℝ 1 1) : State ℝ 1 1 :=
  residualsUpdate lp (upd lin n st 25)

theorem next_block {q : ℕ} {st : State ℝ 1 1} (h : Run both lin old n (25 * q) st)
    (ht : terminationCriteria (adaptive n) (tested lin n st) = false) :
    Run both lin old n (25 * (q + 1)) (adaptRho Real.sqrt (adaptive n) (tested lin n st)) := by
  have h24 := running_upd h 24 le_rfl
  have : 25 * (q + 1) = 25 * q + 24 + 1 := by omega
  rw [this]
  exact Running.cont h24 (body_test (show 25 ∣ 25 * q + 24 + 1 by omega) _ ht)

/-! ### Residuals and scales in terms of the scalars -/

theorem A_x (x : Fin 1 → ℝ) : (lp.A *ᵥ x) 0 = 2 * x 0 := by
  simp [lp, Matrix.mulVec, dotProduct]

theorem resPrim_eq (st : State ℝ 1 1) :
    (residualsUpdate lp st).info.resPrim = |2 * (sc st).x - (sc st).z1| + |(sc st).x - (sc st).z2| := by
  show infNorm (lp.A *ᵥ st.x - st.z) + infNorm (st.x - st.q) = _
  rw [infNorm_one, infNorm_one, Pi.sub_apply, A_x]
  rfl

theorem AT_yA (st : State ℝ 1 1) : (lp.Aᵀ *ᵥ headM st.y) 0 = 2 * (sc st).y1 := by
  have c1 : lp.A 0 0 = 2 := rfl
  simp [Matrix.mulVec, dotProduct, Matrix.transpose_apply, c1, headM, sc]

theorem resDual_eq (st : State ℝ 1 1) : (residualsUpdate lp st).info.resDual = |(sc st).s| := by
  show infNorm (lp.H *ᵥ st.x + lp.h + lp.Aᵀ *ᵥ headM st.y + tailN st.y) = _
  rw [infNorm_one]
  congr 1
  have e1 : (lp.H *ᵥ st.x) 0 = 0 := by simp [lp]
  have e2 := AT_yA st
  show (lp.H *ᵥ st.x) 0 + 5 + (lp.Aᵀ *ᵥ headM st.y) 0 + (sc st).y2 = _
  rw [e1, e2, Pt.s]; ring

theorem maxAxZ_eq (st : State ℝ 1 1) :
    (residualsUpdate lp st).maxAxZ = max |2 * (sc st).x| (max |(sc st).z1| |(sc st).x|) := by
  show max (infNorm (lp.A *ᵥ st.x)) (max (infNorm st.z) (infNorm st.x)) = _
  rw [infNorm_one, infNorm_one, infNorm_one, A_x]
  rfl

theorem maxHxATyh_eq (st : State ℝ 1 1) :
    (residualsUpdate lp st).maxHxATyh = max 0 (max |2 * (sc st).y1| (max 5 |(sc st).y2|)) := by
  show max (infNorm (lp.H *ᵥ st.x)) (max (infNorm (lp.Aᵀ *ᵥ headM st.y)) (max (infNorm lp.h) (infNorm (tailN st.y)))) = _
  rw [infNorm_one, infNorm_one, infNorm_one, infNorm_one]
  have e1 : (lp.H *ᵥ st.x) 0 = 0 := by simp [lp]
  have e2 := AT_yA st
  have e3 : |lp.h 0| = 5 := by show |(5 : ℝ)| = 5; norm_num
  rw [e1, e2, e3, abs_zero]
  rfl

theorem sc_adaptRho (st : State ℝ 1 1) : sc (adaptRho Real.sqrt (adaptive n) st) = sc st := by
  obtain ⟨h1, h2, h3, h4, _⟩ := sameIter_adaptRho (sq := Real.sqrt) (cfg := adaptive n) st
  unfold sc
  rw [h1, h2, h3, h4]

theorem adaptRho_new {st : State ℝ 1 1} (h : clampRho (estimateRho Real.sqrt st st.rho) < st.rho / 5 ∨ clampRho (estimateRho Real.sqrt st st.rho) > st.rho * 5) :
    (adaptRho Real.sqrt (adaptive n) st).rho = clampRho (estimateRho Real.sqrt st st.rho) := by
  have h' : clampRho (estimateRho Real.sqrt st st.rho) < st.rho / (adaptive n).adaptiveRhoTolerance ∨
      clampRho (estimateRho Real.sqrt st st.rho) > st.rho * (adaptive n).adaptiveRhoTolerance := h
  unfold adaptRho
  simp only [if_pos h']
  rfl

/-- Test and new step size at a stalling point. -/
theorem stalled {st : State ℝ 1 1} (hl : (sc st).Low) (he : |(sc st).e| ≤ 1 / 2000) (hs : |(sc st).s| ≤ 1 / 1000000000)
    (hd0 : 0 ≤ (sc st).d) (hd : (sc st).d ≤ 3) :
    terminationCriteria (adaptive n) (residualsUpdate lp st) = false ∧
    ∃ r, |r - 3 / 5| = |(sc st).e| ∧ estimateRho Real.sqrt (residualsUpdate lp st) st.rho =
      st.rho * Real.sqrt (r / (1 + 1 / 1000000000) / (|(sc st).s| / (5 + 1 / 1000000000) + 1 / 1000000000)) := by
  have e0 := abs_le.mp he
  have s0 := abs_le.mp hs
  have hx : (sc st).x = (sc st).e - 2 / 5 := by unfold Pt.e; ring
  have r : (residualsUpdate lp st).info.resPrim = 3 / 5 + (sc st).e := by
    rw [resPrim_eq, hl.1, hl.2, hx, abs_of_nonneg (by linarith), abs_of_nonpos (by linarith)]
    ring
  have m1 : (residualsUpdate lp st).maxAxZ = 1 := by
    have n1 : |(-1 : ℝ)| = 1 := by norm_num
    have n2 : |2 * ((sc st).e - 2 / 5)| ≤ 1 := by rw [abs_le]; constructor <;> linarith
    have n3 : |(sc st).e - 2 / 5| ≤ 1 := by rw [abs_le]; constructor <;> linarith
    rw [maxAxZ_eq, hl.1, hx, n1, max_eq_left n3, max_eq_right n2]
  have m2 : (residualsUpdate lp st).maxHxATyh = 5 := by
    rw [maxHxATyh_eq, y1_eq, y2_eq, max_eq_right (le_max_of_le_right (le_max_of_le_left (by norm_num)))]
    have a1 : |2 * ((2 * ((sc st).s - 5) + (sc st).d) / 5)| ≤ 5 := by rw [abs_le]; constructor <;> linarith
    have a2 : |((sc st).s - 5 - 2 * (sc st).d) / 5| ≤ 5 := by rw [abs_le]; constructor <;> linarith
    rw [max_eq_left a2, max_eq_right a1]
  refine ⟨?_, 3 / 5 + (sc st).e, ?_, ?_⟩
  · unfold terminationCriteria epsPrim
    rw [r, m1]
    have : ¬ 3 / 5 + (sc st).e ≤ (adaptive n).epsAbs + (adaptive n).epsRel * 1 := by
      norm_num [adaptive, Settings.default]; linarith
    rw [decide_eq_false this, Bool.false_and]
  · rw [show 3 / 5 + (sc st).e - 3 / 5 = (sc st).e by ring]
  · unfold estimateRho divByZeroRegul
    rw [r, m1, m2, resDual_eq]

/-- Test and new step size at a point without active constraints. -/
theorem lost {st : State ℝ 1 1} (hz1 : (sc st).z1 = 2 * (sc st).x) (hz2 : (sc st).z2 = (sc st).x) (hy1 : (sc st).y1 = 0) (hy2 : (sc st).y2 = 0) :
    terminationCriteria (adaptive n) (residualsUpdate lp st) = false ∧ estimateRho Real.sqrt (residualsUpdate lp st) st.rho = 0 := by
  have r : (residualsUpdate lp st).info.resPrim = 0 := by
    rw [resPrim_eq, hz1, hz2]; simp
  have d : (residualsUpdate lp st).info.resDual = 5 := by
    rw [resDual_eq, Pt.s, hy1, hy2]; norm_num
  have m2 : (residualsUpdate lp st).maxHxATyh = 5 := by
    rw [maxHxATyh_eq, hy1, hy2]; norm_num
  constructor
  · unfold terminationCriteria epsDual
    rw [d, m2]
    have : ¬ (5 : ℝ) ≤ (adaptive n).epsAbs + (adaptive n).epsRel * 5 := by
      norm_num [adaptive, Settings.default]
    simp [this]
  · unfold estimateRho
    rw [r]; simp

theorem clamp_id {r : ℝ} (h1 : 1 / 1000000 ≤ r) (h2 : r ≤ 1000000) : clampRho r = r := by
  unfold clampRho rhoMin rhoMax
  rw [min_eq_left h2, max_eq_right h1]

theorem clamp_zero : clampRho (0 : ℝ) = 1 / 1000000 := by
  unfold clampRho rhoMin rhoMax; norm_num

/-! ### The cycle -/

/-- The states from which 25 passes start. -/
inductive Start : Kind → State ℝ 1 1 → Prop
  | first {st : State ℝ 1 1} (hr : st.rho = 1 / 10) (h : sc st = ⟨0, 0, 0, 0, 0⟩) : Start .first st
  | big {st : State ℝ 1 1} (hr : 350 ≤ st.rho) (hr1 : st.rho ≤ 2600) (hl : (sc st).Low) (he : |(sc st).e| ≤ 1 / 10000000) (hs : |(sc st).s| ≤ 1 / 1000000000000)
    (hd0 : 0 ≤ (sc st).d) (hd : (sc st).d ≤ 3) : Start .big st
  | tiny {st : State ℝ 1 1} (hr : st.rho = 1 / 1000000) (h0 : 0 ≤ (sc st).x) (h1 : (sc st).x ≤ 1) (hz1 : (sc st).z1 = 2 * (sc st).x) (hz2 : (sc st).z2 = (sc st).x)
    (hy1 : (sc st).y1 = 0) (hy2 : (sc st).y2 = 0) : Start .tiny st
  | stall {st : State ℝ 1 1} (hr : 9 / 500 ≤ st.rho) (hr1 : st.rho ≤ 246 / 10000) (hl : (sc st).Low) (he : |(sc st).e| ≤ 1 / 2000) (hs : |(sc st).s| ≤ 1 / 1000000000)
    (hd : (sc st).d = 1 / 40000) : Start .stall st

/-- From a sharp stalling point the step size becomes large. -/
theorem to_big {st : State ℝ 1 1} (hr : 9 / 500 ≤ st.rho) (hr1 : st.rho ≤ 1 / 10) (hl : (sc st).Low) (he : |(sc st).e| ≤ 1 / 10000000) (hs : |(sc st).s| ≤ 1 / 1000000000000)
    (hd0 : 0 ≤ (sc st).d) (hd : (sc st).d ≤ 3) :
    terminationCriteria (adaptive n) (residualsUpdate lp st) = false ∧ Start .big (adaptRho Real.sqrt (adaptive n) (residualsUpdate lp st)) := by
  obtain ⟨ht, r, h1, h2⟩ := stalled (n := n) hl (he.trans (by norm_num)) (hs.trans (by norm_num)) hd0 hd
  refine ⟨ht, ?_⟩
  obtain ⟨f1, f2⟩ := AdmmCycle.factor_box_sharp (h1.le.trans he) (abs_nonneg _) hs
  set F := Real.sqrt (r / (1 + 1 / 1000000000) / (|(sc st).s| / (5 + 1 / 1000000000) + 1 / 1000000000)) with hF
  have b1 : 350 ≤ st.rho * F := by nlinarith
  have b2 : st.rho * F ≤ 2600 := by nlinarith
  have hc : clampRho (estimateRho Real.sqrt (residualsUpdate lp st) (residualsUpdate lp st).rho) = st.rho * F := by
    show clampRho (estimateRho Real.sqrt (residualsUpdate lp st) st.rho) = _
    rw [h2, clamp_id (by linarith) (by linarith)]
  have hn := adaptRho_new (n := n) (st := residualsUpdate lp st) (by right; rw [hc]; show st.rho * 5 < _; linarith)
  rw [hc] at hn
  have hsc : sc (adaptRho Real.sqrt (adaptive n) (residualsUpdate lp st)) = sc st := sc_adaptRho _
  exact .big (by rw [hn]; exact b1) (by rw [hn]; exact b2) (by rw [hsc]; exact hl) (by rw [hsc]; exact he) (by rw [hsc]; exact hs) (by rw [hsc]; exact hd0) (by rw [hsc]; exact hd)

/-- From a point without active constraints the step size becomes the smallest one. -/
theorem to_tiny {st : State ℝ 1 1} (hr : 350 ≤ st.rho) (a1 : 0 ≤ (sc st).x) (a2 : (sc st).x ≤ 1) (a3 : (sc st).z1 = 2 * (sc st).x) (a4 : (sc st).z2 = (sc st).x)
    (a5 : (sc st).y1 = 0) (a6 : (sc st).y2 = 0) :
    terminationCriteria (adaptive n) (residualsUpdate lp st) = false ∧ Start .tiny (adaptRho Real.sqrt (adaptive n) (residualsUpdate lp st)) := by
  obtain ⟨ht, h2⟩ := lost (n := n) a3 a4 a5 a6
  refine ⟨ht, ?_⟩
  have hc : clampRho (estimateRho Real.sqrt (residualsUpdate lp st) (residualsUpdate lp st).rho) = 1 / 1000000 := by
    show clampRho (estimateRho Real.sqrt (residualsUpdate lp st) st.rho) = _
    rw [h2, clamp_zero]
  have hn := adaptRho_new (n := n) (st := residualsUpdate lp st) (by left; rw [hc]; show _ < st.rho / 5; linarith)
  rw [hc] at hn
  have hsc : sc (adaptRho Real.sqrt (adaptive n) (residualsUpdate lp st)) = sc st := sc_adaptRho _
  exact .tiny hn (by rw [hsc]; exact a1) (by rw [hsc]; exact a2) (by rw [hsc]; exact a3) (by rw [hsc]; exact a4) (by rw [hsc]; exact a5) (by rw [hsc]; exact a6)

/-- From a blunt stalling point with the smallest step size the step size becomes moderate. -/
theorem to_stall {st : State ℝ 1 1} (hr : st.rho = 1 / 1000000) (a : (sc st).Low) (b : (sc st).d = 1 / 40000) (c : |(sc st).e| ≤ 1 / 2000) (d : |(sc st).s| ≤ 1 / 1000000000) :
    terminationCriteria (adaptive n) (residualsUpdate lp st) = false ∧ Start .stall (adaptRho Real.sqrt (adaptive n) (residualsUpdate lp st)) := by
  obtain ⟨ht, r, e1, e2⟩ := stalled (n := n) a c d (by rw [b]; norm_num) (by rw [b]; norm_num)
  refine ⟨ht, ?_⟩
  obtain ⟨f1, f2⟩ := AdmmCycle.factor_box (e1.le.trans c) (abs_nonneg _) d
  rw [hr] at e2
  set F := Real.sqrt (r / (1 + 1 / 1000000000) / (|(sc st).s| / (5 + 1 / 1000000000) + 1 / 1000000000)) with hF
  have hc : clampRho (estimateRho Real.sqrt (residualsUpdate lp st) (residualsUpdate lp st).rho) = 1 / 1000000 * F := by
    show clampRho (estimateRho Real.sqrt (residualsUpdate lp st) st.rho) = _
    rw [hr, e2, clamp_id (by linarith) (by linarith)]
  have hn := adaptRho_new (n := n) (st := residualsUpdate lp st) (by right; rw [hc]; show st.rho * 5 < _; rw [hr]; linarith)
  rw [hc] at hn
  have hsc : sc (adaptRho Real.sqrt (adaptive n) (residualsUpdate lp st)) = sc st := sc_adaptRho _
  exact .stall (by rw [hn]; linarith) (by rw [hn]; linarith) (by rw [hsc]; exact a) (by rw [hsc]; exact c) (by rw [hsc]; exact d) (by rw [hsc]; exact b)

/-- 25 scalar passes from a start of the cycle lead to a state with a failed test and another start of the cycle. -/
theorem start_block {st s : State ℝ 1 1} {f : ℕ → Pt} {κ : Kind} (hst : Start κ st) (hf : ∀ i < 25, Pass st.rho (f i) (f (i + 1))) (h0 : f 0 = sc st) (h25 : f 25 = sc s)
    (hrho : s.rho = st.rho) :
    terminationCriteria (adaptive n) (residualsUpdate lp s) = false ∧ Start κ.next (adaptRho Real.sqrt (adaptive n) (residualsUpdate lp s)) := by
  cases hst with
  | first hr hsc =>
    rw [hr] at hf
    obtain ⟨a, b, c, d⟩ := AdmmCycle.first_phase hf (h0.trans hsc)
    rw [h25] at a b c d
    exact to_big (by rw [hrho, hr]; norm_num) (by rw [hrho, hr]) a b c (by rw [d]; norm_num) (by rw [d]; norm_num)
  | stall hr hr1 hl he hs hd =>
    rw [← h0] at hl he hs hd
    obtain ⟨a, b, c, d⟩ := AdmmCycle.stall_phase (m := 23) hr hf hl he hs (by rw [hd]; norm_num) (by rw [hd]; push_cast; linarith)
    rw [show 23 + 2 = 25 from rfl, h25] at a b c d
    rw [hd] at d
    push_cast at d
    exact to_big (by rw [hrho]; exact hr) (by rw [hrho]; linarith) a b c (by rw [d]; linarith) (by rw [d]; linarith)
  | big hr hr1 hl he hs hd0 hd =>
    rw [← h0] at hl he hs hd0 hd
    obtain ⟨a1, a2, a3, a4, a5, a6⟩ := AdmmCycle.big_phase hr hr1 hf hl he hs hd0 hd
    rw [h25] at a1 a2 a3 a4 a5 a6
    exact to_tiny (by rw [hrho]; exact hr) a1 a2 a3 a4 a5 a6
  | tiny hr x0 x1 hz1 hz2 hy1 hy2 =>
    rw [hr] at hf
    rw [← h0] at x0 x1 hz1 hz2 hy1 hy2
    obtain ⟨a, b, c, d⟩ := AdmmCycle.tiny_phase hf x0 x1 hz1 hz2 hy1 hy2
    rw [h25] at a b c d
    exact to_stall (hrho.trans hr) a b c d

/-- Every block of 25 passes ends with a failed test and leads to another start of the cycle. -/
theorem start_next (hex : ExactSolver both lin) {q : ℕ} {st : State ℝ 1 1} (h : Run both lin old n (25 * q) st) {κ : Kind} (hst : Start κ st) :
    terminationCriteria (adaptive n) (tested lin n st) = false ∧ Start κ.next (adaptRho Real.sqrt (adaptive n) (tested lin n st)) :=
  start_block (f := fun i => sc (upd lin n st i)) hst (passes hex h) rfl rfl (upd_rho st 25)

theorem start_running (hex : ExactSolver both lin) (q : ℕ) : ∃ st, Run both lin old n (25 * q) st ∧ Start (kind q) st := by
  induction q with
  | zero =>
    refine ⟨_, Running.init, .first rfl ?_⟩
    simp [sc, setup, factorise, rhoVecUpdate, Matrix.mulVec, dotProduct]
  | succ q ih =>
    obtain ⟨st, h, hst⟩ := ih
    obtain ⟨ht, hn⟩ := start_next hex h hst
    exact ⟨_, next_block h ht, hn⟩

/-- A run is determined by the number of passes. -/
theorem run_unique {k : ℕ} {s t : State ℝ 1 1} (hs : Run both lin old n k s) (ht : Run both lin old n k t) : s = t := by
  induction k generalizing s t with
  | zero => cases hs; cases ht; rfl
  | succ k ih =>
    cases hs with
    | cont h1 b1 =>
      cases ht with
      | cont h2 b2 =>
        have := ih h1 h2
        subst this
        rw [b1] at b2
        injection b2

/-- C199 (runs forever). With `adaptive_rho` the solver returns MAX_ITER_EXCEEDED on this linear program for every iteration
limit, with an exact linear solver and whatever the object did before. -/
theorem adaptive_never_solved (hex : ExactSolver both lin) (old : State ℝ 1 1) (n : ℤ) :
    ∃ st, solve both lin Real.sqrt (adaptive n) lp (fun _ => 0) (fun _ => 0) old = some st ∧ st.info.status = .MAX_ITER_EXCEEDED := by
  obtain ⟨st, hst⟩ := Option.isSome_iff_exists.mp (solve_defined (both := both) (lin := lin) (sq := Real.sqrt)
    (cfg := adaptive n) (qp := lp) (xg := fun _ => 0) (yg := fun _ => 0) (old := old) (Or.inr (by norm_num [adaptive, Settings.default])))
  refine ⟨st, hst, ?_⟩
  rcases solve_cases hst with ⟨j, s, s', hr, hb, _, rfl⟩ | ⟨s, _, rfl⟩
  · exfalso
    obtain ⟨hc, -, ht⟩ := brk_spec hb
    rw [check_iff] at hc
    obtain ⟨q, hq⟩ := hc
    obtain ⟨q', rfl⟩ : ∃ q', q = q' + 1 := ⟨q - 1, by omega⟩
    obtain rfl : j = 25 * q' + 24 := by omega
    obtain ⟨s0, h0, hs0⟩ := start_running (n := n) (old := old) hex q'
    have e := run_unique hr (running_upd h0 24 le_rfl)
    subst e
    have := (start_next hex h0 hs0).1
    have e2 : tested lin n s0 = residualsUpdate lp (admmUpdate lin (adaptive n) lp (upd lin n s0 24)) := rfl
    rw [e2, ht] at this
    exact absurd this (by simp)
  · rfl

/-- C199 (what is returned). With the default limit of 1000 iterations the returned point is `-2/5` up to `1e-7`: it violates the
bound `0 ≤ x` of the only variable by `0.4`. -/
theorem adaptive_returns_infeasible (hex : ExactSolver both lin) (old : State ℝ 1 1) :
    ∃ st, solve both lin Real.sqrt { (Settings.default : Settings ℝ) with adaptiveRho := true } lp (fun _ => 0) (fun _ => 0) old = some st ∧
      st.info.status = .MAX_ITER_EXCEEDED ∧ |st.x 0 + 2 / 5| ≤ 1 / 10 ^ 7 ∧ ¬ lp.Feasible st.x := by
  obtain ⟨st, hst, hs⟩ := adaptive_never_solved hex old 1000
  have hx : |st.x 0 + 2 / 5| ≤ 1 / 10 ^ 7 := by
    rcases solve_cases hst with ⟨j, s, s', hr, hb, _, rfl⟩ | ⟨s, hr, rfl⟩
    · obtain ⟨-, h, -⟩ := brk_spec hb
      rw [h] at hs
      cases hs
    · obtain ⟨s0, h0, hs0⟩ := start_running (n := 1000) (old := old) hex 40
      have e : s = s0 := run_unique hr h0
      subst e
      have hk : kind 40 = .big := by decide
      rw [hk] at hs0
      cases hs0 with
      | big _ _ _ he _ _ _ =>
        have he : |s.x 0 + 2 / 5| ≤ 1 / 10000000 := he
        exact he.trans (by norm_num)
  refine ⟨st, hst, hs, hx, fun hf => ?_⟩
  have h1 := (hf.2 0).1
  have h1 : 0 ≤ st.x 0 := h1
  have := (abs_le.mp hx).2
  norm_num at this
  linarith

/-- C199 (contrast). With the default `adaptive_rho = false` the same program is solved for every large iteration limit. -/
theorem fixed_solved (hex : ExactSolver both lin) (old : State ℝ 1 1) :
    ∃ m : ℤ, ∀ maxIter ≥ m, ∃ st, solve both lin Real.sqrt { (Settings.default : Settings ℝ) with maxIter := maxIter } lp (fun _ => 0) (fun _ => 0) old = some st ∧
      st.info.status = .SOLVED :=
  eventually_solved (cfg := Settings.default) hex lp_convex ⟨_, _, lp_kkt⟩ (by norm_num [Settings.default]) (by norm_num [Settings.default])
    rfl (fun i j hij => absurd (Subsingleton.elim i j) hij) rfl (by norm_num [Settings.default]) (by norm_num [Settings.default])
    (by norm_num [Settings.default])

/-! ## Non-vacuity -/

/-- There are exact linear solvers. -/
example : ∃ lin : KktMat ℝ 1 1 → (KktIdx 1 1 → ℝ) → (KktIdx 1 1 → ℝ), ExactSolver true lin :=
  ⟨fun A b => (effective true A)⁻¹ *ᵥ b, fun A b hdet => by
    rw [Matrix.mulVec_mulVec, Matrix.mul_nonsing_inv _ (isUnit_iff_ne_zero.mpr hdet), Matrix.one_mulVec]⟩

/-- `0` is a feasible point, so the program has a solution the solver misses. -/
example : lp.Feasible fun _ => 0 :=
  ⟨fun i => by simp [lp, Matrix.mulVec, dotProduct], fun i => by simp [lp]⟩

/-- Both alternatives occur: the program of C199 is solved with a large tolerance and changes the step size forever with the
default one. -/
example {lin : KktMat ℝ 1 1 → (KktIdx 1 1 → ℝ) → (KktIdx 1 1 → ℝ)} (hex : ExactSolver both lin) (old : State ℝ 1 1) :
    (∃ n : ℤ, ∀ maxIter ≥ n, ∃ st, solve both lin Real.sqrt
      { (Settings.default : Settings ℝ) with adaptiveRho := true, adaptiveRhoTolerance := 10 ^ 12, maxIter := maxIter } lp (fun _ => 0) (fun _ => 0) old = some st ∧
      st.info.status = .SOLVED) ∧
    (∀ k, ∃ k' ≥ k, ∃ st st', Run both lin old 1000 k' st ∧ Run both lin old 1000 (k' + 1) st' ∧ st'.rho ≠ st.rho) := by
  constructor
  · exact solved_with_large_tolerance (cfg := { (Settings.default : Settings ℝ) with adaptiveRho := true, adaptiveRhoTolerance := 10 ^ 12 }) hex lp_convex ⟨_, _, lp_kkt⟩
      (by norm_num [Settings.default]) (by norm_num [Settings.default]) (by norm_num [Settings.default]) rfl (fun i j hij => absurd (Subsingleton.elim i j) hij)
      (by norm_num [Settings.default]) le_rfl (by norm_num [Settings.default]) (by norm_num [Settings.default]) (by norm_num [Settings.default])
  · rcases solved_or_step_size_changes_forever (cfg := adaptive 1000) (sq := Real.sqrt) (xg := fun _ => 0) (yg := fun _ => 0) (old := old) hex lp_convex ⟨_, _, lp_kkt⟩
      cfg_sigma cfg_rho rfl
      (fun i j hij => absurd (Subsingleton.elim i j) hij) (Or.inr (by norm_num [adaptive, Settings.default])) (by norm_num [adaptive, Settings.default])
      (by norm_num [adaptive, Settings.default]) (by norm_num [adaptive, Settings.default]) with ⟨m, h⟩ | h
    · exfalso
      obtain ⟨st, h1, h2⟩ := h m le_rfl
      obtain ⟨st', h3, h4⟩ := adaptive_never_solved hex old m
      have e : some st = some st' := h1.symm.trans h3
      cases e
      rw [h2] at h4
      cases h4
    · exact h

/-- The bound for `min ½ x² + x` subject to `-1 ≤ x ≤ 1` (and the row `-2 ≤ x ≤ 2`) from the guess zero, with `rho = sigma = 1`, `alpha = 1`, tolerances
`1/10` and a test after every pass: 4800 passes suffice. -/
example {lin : KktMat ℝ 1 1 → (KktIdx 1 1 → ℝ) → (KktIdx 1 1 → ℝ)} (hex : ExactSolver both lin) (old : State ℝ 1 1) :
    ∃ st, BoxAdmm.solve both lin Real.sqrt { (Settings.default : Settings ℝ) with maxIter := 4800, rho := 1, sigma := 1, epsAbs := 1 / 10, epsRel := 0, checkTermination := 1 }
      ⟨1, fun _ => 1, fun _ _ => 1, fun _ => -2, fun _ => 2, fun _ => -1, fun _ => 1⟩ (fun _ => 0) (fun _ => 0) old = some st ∧ st.info.status = .SOLVED ∧ st.info.iter ≤ 4800 := by
  set qp : QP ℝ 1 1 := ⟨1, fun _ => 1, fun _ _ => 1, fun _ => -2, fun _ => 2, fun _ => -1, fun _ => 1⟩ with hqp
  have hs : ∀ j, Admm.stepSize qp 1 j = 1 := by
    rintro (j | j) <;> norm_num [Admm.stepSize, QP.lower, QP.upper, hqp]
  have hkkt : qp.KKT (fun _ => -1) (fun _ => 0) := by
    constructor
    · funext i; simp [QP.lagrangianGradient, hqp, QP.yA, QP.yBox, Matrix.mulVec, dotProduct]
    · rintro (i | i) <;> norm_num [hqp, QP.lower, QP.upper, QP.rows, Matrix.mulVec, dotProduct]
  have hH : ∀ i l : Fin 1, qp.H i l = 1 := fun i l => by
    rw [Subsingleton.elim i l]; exact Matrix.one_apply_eq l
  have hA : ∀ j i : Fin 1, qp.A j i = 1 := fun _ _ => rfl
  have hre : ∀ (j : Fin 1 ⊕ Fin 1) (i : Fin 1), Admm.rowEntry qp j i = 1 := by
    rintro (j | j) i
    · rfl
    · show (if j = i then (1 : ℝ) else 0) = 1
      rw [if_pos (Subsingleton.elim _ _)]
  have hrow : ∀ (v : Fin 1 → ℝ) (j : Fin 1 ⊕ Fin 1), qp.rows v j = v 0 := by
    intro v j
    rcases j with j | j
    · simp [QP.rows, hqp, Matrix.mulVec, dotProduct]
    · show v j = v 0
      rw [Subsingleton.elim j 0]
  refine BoxAdmm.iteration_bound (cfg := { (Settings.default : Settings ℝ) with maxIter := 4800, rho := 1, sigma := 1, epsAbs := 1 / 10, epsRel := 0, checkTermination := 1 })
    (mu := 1) (d := 1 / 40) (L := 4800) hex ⟨Matrix.transpose_one, fun x => ?_⟩ hkkt one_pos one_pos rfl (fun i j hij => absurd (Subsingleton.elim i j) hij) rfl one_pos
    (by norm_num) le_rfl one_pos le_rfl (fun j => (hs j).ge) (by norm_num) (by norm_num) (fun j => ?_) (fun i => ?_) (by norm_num) ?_ (by norm_num)
  · rw [show qp.H = 1 from rfl, Matrix.one_mulVec]; exact Finset.sum_nonneg fun i _ => mul_self_nonneg _
  · simp only [hA]; norm_num
  · simp only [hH, hre, hs]; norm_num
  · unfold Admm.guessError
    simp only [hs, hrow]
    norm_num [Settings.default]

end PolyMPC.BoxAdmmCycle
