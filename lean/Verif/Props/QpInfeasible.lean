import Verif.Props.QpExistence

/-!
# Properties C167 and C168: what the QP solvers do when the constraints cannot be met
-/

set_option linter.unusedSectionVars false

namespace PolyMPC.Spec.QP
open Matrix

variable {K : Type*} [Field K] [LinearOrder K] [IsStrictOrderedRing K] {N M : ℕ} {qp : QP K N M}

/-- Crossed bounds replaced by the upper one. -/
def uncross (qp : QP K N M) : QP K N M :=
  { qp with Alb := fun i => min (qp.Alb i) (qp.Aub i), xlb := fun i => min (qp.xlb i) (qp.xub i) }

theorem uncross_consistent (qp : QP K N M) : qp.uncross.Consistent := by
  rintro (i | i)
  · exact min_le_right _ _
  · exact min_le_right _ _

theorem uncross_convex (h : qp.Convex) : qp.uncross.Convex := h

/-- Nothing changes if no bounds are crossed. -/
theorem uncross_eq (h : qp.Consistent) : qp.uncross = qp := by
  have h1 : (fun i => min (qp.Alb i) (qp.Aub i)) = qp.Alb := funext fun i => min_eq_left (h (Sum.inl i))
  have h2 : (fun i => min (qp.xlb i) (qp.xub i)) = qp.xlb := funext fun i => min_eq_left (h (Sum.inr i))
  unfold uncross
  rw [h1, h2]

/-- Tolerances below which a pair of vectors this close to each other contradicts infeasibility, whatever scale below the larger of their norms the relative tolerance is
multiplied with. -/
theorem infeasible_tolerance (hinf : ¬ ∃ x, qp.Feasible x) :
    ∃ e : K, 0 < e ∧ ∀ ea er x z s, ea ≤ e → 0 ≤ er → er ≤ e → (∀ i, qp.lower i ≤ z i ∧ z i ≤ qp.upper i) →
      s ≤ max (infNorm (qp.rows x)) (infNorm z) → ¬ infNorm (qp.rows x - z) ≤ ea + er * s := by
  obtain ⟨δ, hδ, hg⟩ := infeasible_gap hinf
  -- every vector within the bounds has norm at most `B`
  set B : K := max (infNorm qp.lower) (infNorm qp.upper) with hB
  have hB0 : 0 ≤ B := le_trans (infNorm_nonneg _) (le_max_left _ _)
  have hz : ∀ z, (∀ i, qp.lower i ≤ z i ∧ z i ≤ qp.upper i) → infNorm z ≤ B := fun z hz => by
    refine (infNorm_le_iff _).2 ⟨hB0, fun i => abs_le.2 ⟨?_, ?_⟩⟩
    · have := (abs_le.1 ((le_infNorm qp.lower i).trans (le_max_left _ (infNorm qp.upper)))).1
      linarith [(hz i).1]
    · have := (abs_le.1 ((le_infNorm qp.upper i).trans (le_max_right (infNorm qp.lower) _))).2
      linarith [(hz i).2]
  refine ⟨min (1 / 2) (δ / (4 * (1 + B))), lt_min (by norm_num) (div_pos hδ (by linarith)), fun ea er x z s h1 h0 h2 hzb hs hle => ?_⟩
  have hr := hg x z hzb
  have hzB := hz z hzb
  have hrx : infNorm (qp.rows x) ≤ B + infNorm (qp.rows x - z) := by
    refine (infNorm_le_iff _).2 ⟨add_nonneg hB0 (infNorm_nonneg _), fun i => ?_⟩
    have e : qp.rows x i = z i + (qp.rows x - z) i := by rw [Pi.sub_apply]; ring
    rw [e]
    exact (abs_add_le _ _).trans (add_le_add ((le_infNorm z i).trans hzB) (le_infNorm _ i))
  have hsB : s ≤ B + infNorm (qp.rows x - z) := hs.trans (max_le hrx (hzB.trans (by linarith [infNorm_nonneg (qp.rows x - z)])))
  set r := infNorm (qp.rows x - z) with hrd
  have e1 := h1.trans (min_le_right _ _)
  have e2 := h2.trans (min_le_right _ _)
  have e3 := h2.trans (min_le_left _ _)
  have hpos : (0 : K) < 4 * (1 + B) := by linarith
  rw [le_div_iff₀ hpos] at e1 e2
  have f1 : er * s ≤ er * (B + r) := mul_le_mul_of_nonneg_left hsB h0
  have f2 : er * r ≤ 1 / 2 * r := mul_le_mul_of_nonneg_right e3 (by linarith)
  -- `(ea + er B) (1 + B) 4 ≤ δ (1 + B)`
  have f3 : 4 * (ea + er * B) * (1 + B) ≤ δ * (1 + B) := by nlinarith
  have f4 : 4 * (ea + er * B) ≤ δ := le_of_mul_le_mul_right f3 (by linarith)
  linarith

end PolyMPC.Spec.QP

namespace PolyMPC.Admm
open Matrix PolyMPC.Spec PolyMPC.QPBase

section Field
variable {K : Type*} [Field K] [LinearOrder K] [IsStrictOrderedRing K] {N M : ℕ} {qp : QP K N M}

/-- **C167** (ADMM). An infeasible program whose bounds are not crossed is never reported as SOLVED if the tolerances are small enough: the threshold depends on the program only, not on
the other settings, the linear solver, the guess or the history of the object. -/
theorem infeasible_not_solved (hc : qp.Consistent) (hinf : ¬ ∃ x, qp.Feasible x) :
    ∃ e : K, 0 < e ∧ ∀ (both : Bool) (lin : KktMat K N M → (KktIdx N M → K) → (KktIdx N M → K)) (sq : K → K) (cfg : Settings K) (xg : Fin N → K)
      (yg : Fin M ⊕ Fin N → K) (old st : State K N M), cfg.epsAbs ≤ e → 0 ≤ cfg.epsRel → cfg.epsRel ≤ e →
      solve both lin sq cfg qp xg yg old = some st → st.info.status = .MAX_ITER_EXCEEDED := by
  obtain ⟨e, he, h⟩ := QP.infeasible_tolerance hinf
  refine ⟨e, he, fun both lin sq cfg xg yg old st h1 h2 h3 hsol => ?_⟩
  rcases status_cases hsol with hs | hs
  · exfalso
    obtain ⟨k, s, ha, _, _, hz⟩ := solved_afterPass hsol hs
    exact h _ _ st.x st.z _ h1 h2 h3 (fun i => by rw [← hz]; exact z_within_bounds hc ha i) le_rfl (solved_residuals hsol hs).1
  · exact hs

theorem classify_uncross (lb ub : K) : classify (min lb ub) ub = classify lb ub := by
  rcases le_or_gt lb ub with h | h
  · rw [min_eq_left h]
  · rw [min_eq_right h.le]
    have h1 : ¬ (ub < -looseBoundsThresh ∧ ub > looseBoundsThresh) := by
      rintro ⟨a, b⟩
      have : (0 : K) < looseBoundsThresh := by norm_num [looseBoundsThresh]
      linarith
    have h2 : ¬ (lb < -looseBoundsThresh ∧ ub > looseBoundsThresh) := by
      rintro ⟨a, b⟩
      have : (0 : K) < looseBoundsThresh := by norm_num [looseBoundsThresh]
      linarith
    have h0 : (0 : K) < eqTol := by norm_num [eqTol]
    unfold classify
    rw [if_neg h1, if_neg h2, if_pos (by linarith), if_pos (by linarith)]

theorem clip_uncross (v lb ub : K) : min (max v (min lb ub)) ub = min (max v lb) ub := by
  rcases le_or_gt lb ub with h | h
  · rw [min_eq_left h]
  · rw [min_eq_right h.le, min_eq_right (le_max_right _ _), min_eq_right (h.le.trans (le_max_right _ _))]

/-- **C168** (ADMM). Crossed bounds are not noticed: the call does exactly what it does when each crossed pair is replaced by an equality with the upper bound. -/
theorem crossed_bounds (both : Bool) (lin : KktMat K N M → (KktIdx N M → K) → (KktIdx N M → K)) (sq : K → K) (cfg : Settings K) (qp : QP K N M)
    (xg : Fin N → K) (yg : Fin M ⊕ Fin N → K) (old : State K N M) :
    solve both lin sq cfg qp xg yg old = solve both lin sq cfg qp.uncross xg yg old := by
  have h1 : parseConstr qp.uncross.Alb qp.uncross.Aub = parseConstr qp.Alb qp.Aub := funext fun i => classify_uncross _ _
  have h2 : parseBox qp.uncross.xlb qp.uncross.xub = parseBox qp.xlb qp.xub := funext fun i => classify_uncross _ _
  have hs : setup both cfg qp.uncross xg yg old = setup both cfg qp xg yg old := by
    unfold setup
    rw [h1, h2]
    rfl
  have hp : ∀ v, boxProjection v qp.uncross.Alb qp.uncross.Aub qp.uncross.xlb qp.uncross.xub = boxProjection v qp.Alb qp.Aub qp.xlb qp.xub := fun v => by
    funext i
    rcases i with i | i
    · exact clip_uncross _ _ _
    · exact clip_uncross _ _ _
  have ha : ∀ st, admmUpdate lin cfg qp.uncross st = admmUpdate lin cfg qp st := fun st => by
    unfold admmUpdate
    simp only [hp]
    rfl
  have hb : ∀ it st, body lin sq cfg qp.uncross it st = body lin sq cfg qp it st := fun it st => by
    unfold body
    rw [ha]
    rfl
  have hl : ∀ k it st, loop lin sq cfg qp.uncross k it st = loop lin sq cfg qp k it st := by
    intro k
    induction k with
    | zero => intro it st; rfl
    | succ k ih =>
      intro it st
      unfold loop
      rw [hb]
      cases body lin sq cfg qp it st with
      | ub => rfl
      | brk s => rfl
      | cont s => exact ih _ _
  unfold solve
  rw [hs, hl]

/-- A program without feasible point, and without crossed bounds: `x = 5` as a constraint, `-2 ≤ x ≤ 2` as bounds. -/
def farQP : QP ℚ 1 1 := { exampleQP with Alb := fun _ => 5, Aub := fun _ => 5 }

example : farQP.Consistent ∧ ¬ ∃ x, farQP.Feasible x := by
  refine ⟨?_, ?_⟩
  · rintro (i | i) <;> norm_num [QP.lower, QP.upper, farQP, exampleQP]
  · rintro ⟨x, h1, h2⟩
    have a := (h1 0).1
    have b := (h2 0).2
    simp [farQP, exampleQP, mulVec, dotProduct] at a b
    linarith

/-- Whether it is reported as solved depends on the tolerances: with loose ones it is. -/
example : ((solveCold false exampleLin id exampleCfg farQP (fresh exampleCfg (fun _ => 0) (fun _ => 0) 0)).map fun st => st.info.status) = some .MAX_ITER_EXCEEDED ∧
    ((solveCold false exampleLin id { exampleCfg with epsAbs := 10 } farQP (fresh exampleCfg (fun _ => 0) (fun _ => 0) 0)).map fun st => st.info.status) =
      some .SOLVED := by
  constructor <;> decide +kernel

/-- A program with crossed bounds, `2 ≤ x ≤ 1`, is reported as solved at `x = 1` (up to the tolerance). -/
example : ((solveCold false exampleLin id exampleCfg { exampleQP with xlb := fun _ => 2, xub := fun _ => 1 }
    (fresh exampleCfg (fun _ => 0) (fun _ => 0) 0)).map fun st => (st.info.status, decide (|st.x 0 - 1| ≤ 1 / 10))) = some (.SOLVED, true) := by
  decide +kernel

end Field

section Real
variable {N M : ℕ} {both : Bool} {lin : KktMat ℝ N M → (KktIdx N M → ℝ) → (KktIdx N M → ℝ)} {sq : ℝ → ℝ} {cfg : Settings ℝ}
  {qp : QP ℝ N M} {xg : Fin N → ℝ} {yg : Fin M ⊕ Fin N → ℝ} {old : State ℝ N M}

/-- **C167, C168** (ADMM). A convex program is reported as SOLVED for all tolerances, each with enough iterations, exactly if it is feasible once crossed bounds are replaced by
equalities with the upper bound. -/
theorem solved_iff_feasible (hex : ExactSolver both lin) (hconv : qp.Convex) (hsig : 0 < cfg.sigma) (hrho : 0 < cfg.rho) (ha : 0 < cfg.alpha) (ha2 : cfg.alpha < 2)
    (hadapt : cfg.adaptiveRho = false) (hcheck : cfg.checkTermination ≠ 0) :
    (∀ tol > 0, ∃ maxIter st, solve both lin sq { cfg with maxIter := maxIter, epsAbs := tol, epsRel := tol } qp xg yg old = some st ∧
      st.info.status = .SOLVED) ↔ ∃ x, qp.uncross.Feasible x := by
  constructor
  · intro h
    by_contra hinf
    obtain ⟨e, he, hn⟩ := infeasible_not_solved qp.uncross_consistent hinf
    obtain ⟨m, st, h1, h2⟩ := h e he
    rw [crossed_bounds] at h1
    have := hn both lin sq _ xg yg old st le_rfl he.le le_rfl h1
    rw [h2] at this
    cases this
  · intro hf tol ht
    obtain ⟨n, hn⟩ := feasible_eventually_solved (cfg := { cfg with epsAbs := tol, epsRel := tol }) (sq := sq) (xg := xg) (yg := yg) (old := old) hex
      (QP.uncross_convex hconv) hf hsig hrho ha ha2 hadapt hcheck ht ht.le
    obtain ⟨st, h1, h2⟩ := hn n le_rfl
    rw [← crossed_bounds] at h1
    exact ⟨n, st, h1, h2⟩

end Real
end PolyMPC.Admm

namespace PolyMPC.AdmmSparse
open Matrix PolyMPC.Spec PolyMPC.QPBase

/-- **C167** (sparse ADMM): the same for the last of any regular sequence of calls. -/
theorem sparse_infeasible_not_solved {K : Type} [Field K] [LinearOrder K] [IsStrictOrderedRing K] {N M : ℕ} {p : SparseQP K N M} (hc : p.toQP.Consistent)
    (hinf : ¬ ∃ x, p.toQP.Feasible x) :
    ∃ e : K, 0 < e ∧ ∀ (both : Bool) (lin : Admm.KktMat K N M → (Admm.KktIdx N M → K) → (Admm.KktIdx N M → K)) (sq : K → K) (l : List (Call K N M)) (c : Call K N M)
      (o o1 o2 : Obj K N M), c.p = p → Regular both none (l ++ [c]) → o.st.kkt = 0 → sparseRun both lin sq l o = some o1 → c.cfg.epsAbs ≤ e → 0 ≤ c.cfg.epsRel →
      c.cfg.epsRel ≤ e → solve c.reuse both lin sq c.cfg c.p c.xg c.yg o1 = some o2 → o2.st.info.status = .MAX_ITER_EXCEEDED := by
  obtain ⟨e, he, h⟩ := Admm.infeasible_not_solved hc hinf
  refine ⟨e, he, fun both lin sq l c o o1 o2 hp hl ho h1 h2 h3 h4 h5 => ?_⟩
  have := sparse_last (lin := lin) (sq := sq) hl ho h1
  rw [h5, hp] at this
  exact h both lin sq c.cfg c.xg c.yg o1.st o2.st h2 h3 h4 this.symm

end PolyMPC.AdmmSparse

namespace PolyMPC.BoxAdmm
open Matrix PolyMPC.Spec PolyMPC.QPBase

section Field
variable {K : Type*} [Field K] [LinearOrder K] [IsStrictOrderedRing K] {N M : ℕ} {qp : QP K N M}

/-- **C167** (boxADMM). -/
theorem infeasible_not_solved (hc : qp.Consistent) (hinf : ¬ ∃ x, qp.Feasible x) :
    ∃ e : K, 0 < e ∧ ∀ (both : Bool) (lin : KktMat K N M → (KktIdx N M → K) → (KktIdx N M → K)) (sq : K → K) (cfg : Settings K) (xg : Fin N → K)
      (yg : Fin M ⊕ Fin N → K) (old st : State K N M), 0 < cfg.rho → cfg.epsAbs ≤ e → 0 ≤ cfg.epsRel → cfg.epsRel ≤ e →
      solve both lin sq cfg qp xg yg old = some st → st.info.status = .MAX_ITER_EXCEEDED := by
  obtain ⟨e, he, h⟩ := QP.infeasible_tolerance hinf
  refine ⟨e, he, fun both lin sq cfg xg yg old st hr h1 h2 h3 hsol => ?_⟩
  rcases status_iter hsol with hs | hs
  · exfalso
    refine h _ _ st.x st.aux (boxPrimalScale qp st.x st.z) h1 h2 h3 (fun i => ((solved_kkt hc hr hsol hs.1).1 i).1) ?_
      ((rows_sub_aux_le qp st).trans (solved_residuals hsol hs.1).1)
    have e1 : infNorm (qp.rows st.x) = max (infNorm (qp.A *ᵥ st.x)) (infNorm st.x) := infNorm_sumElim _ _
    have e2 : infNorm st.aux = max (infNorm st.z) (infNorm st.q) := by
      have : st.aux = Sum.elim st.z st.q := by funext i; rcases i with i | i <;> rfl
      rw [this, infNorm_sumElim]
    rw [e1, e2]
    refine max_le ?_ (max_le ?_ ?_)
    · exact le_max_of_le_left (le_max_left _ _)
    · exact le_max_of_le_right (le_max_left _ _)
    · exact le_max_of_le_left (le_max_right _ _)
  · exact hs.1

/-- **C168** (boxADMM). -/
theorem crossed_bounds (both : Bool) (lin : KktMat K N M → (KktIdx N M → K) → (KktIdx N M → K)) (sq : K → K) (cfg : Settings K) (qp : QP K N M)
    (xg : Fin N → K) (yg : Fin M ⊕ Fin N → K) (old : State K N M) :
    solve both lin sq cfg qp xg yg old = solve both lin sq cfg qp.uncross xg yg old := by
  have h1 : parseConstr qp.uncross.Alb qp.uncross.Aub = parseConstr qp.Alb qp.Aub := funext fun i => Admm.classify_uncross _ _
  have h2 : parseBox qp.uncross.xlb qp.uncross.xub = parseBox qp.xlb qp.xub := funext fun i => Admm.classify_uncross _ _
  have hs : setup both cfg qp.uncross xg yg old = setup both cfg qp xg yg old := by
    unfold setup
    rw [h1, h2]
    rfl
  have hpA : ∀ v i, min (max v (qp.uncross.Alb i)) (qp.uncross.Aub i) = min (max v (qp.Alb i)) (qp.Aub i) := fun v i => Admm.clip_uncross _ _ _
  have hpx : ∀ v i, min (max v (qp.uncross.xlb i)) (qp.uncross.xub i) = min (max v (qp.xlb i)) (qp.xub i) := fun v i => Admm.clip_uncross _ _ _
  have ha : ∀ st, admmUpdate lin cfg qp.uncross st = admmUpdate lin cfg qp st := fun st => by
    unfold admmUpdate
    simp only [hpA, hpx]
    rfl
  have hb : ∀ it st, body lin sq cfg qp.uncross it st = body lin sq cfg qp it st := fun it st => by
    unfold body
    rw [ha]
    rfl
  have hl : ∀ k it st, loop lin sq cfg qp.uncross k it st = loop lin sq cfg qp k it st := by
    intro k
    induction k with
    | zero => intro it st; rfl
    | succ k ih =>
      intro it st
      unfold loop
      rw [hb]
      cases body lin sq cfg qp it st with
      | ub => rfl
      | brk s => rfl
      | cont s => exact ih _ _
  unfold solve
  rw [hs, hl]

/-- The program with crossed bounds above, given to boxADMM. -/
example : ((solve false exampleLin id { Admm.exampleCfg with maxIter := 12 } { Admm.exampleQP with xlb := fun _ => 2, xub := fun _ => 1 } (fun _ => 0) (fun _ => 0)
    (fresh Admm.exampleCfg (fun _ => 0) (fun _ => 0) 0)).map fun st => (st.info.status, decide (|st.x 0 - 1| ≤ 1 / 10))) = some (.SOLVED, true) := by
  decide +kernel

end Field

section Real
variable {N M : ℕ} {both : Bool} {lin : KktMat ℝ N M → (KktIdx N M → ℝ) → (KktIdx N M → ℝ)} {sq : ℝ → ℝ} {cfg : Settings ℝ}
  {qp : QP ℝ N M} {xg : Fin N → ℝ} {yg : Fin M ⊕ Fin N → ℝ} {old : State ℝ N M}

/-- **C167, C168** (boxADMM). -/
theorem solved_iff_feasible (hex : ExactSolver both lin) (hconv : qp.Convex) (hsig : 0 < cfg.sigma) (hrho : 0 < cfg.rho) (halpha : cfg.alpha = 1)
    (ho : CleanCorner old.kkt) (hadapt : cfg.adaptiveRho = false) (hcheck : cfg.checkTermination ≠ 0) :
    (∀ tol > 0, ∃ maxIter st, solve both lin sq { cfg with maxIter := maxIter, epsAbs := tol, epsRel := tol } qp xg yg old = some st ∧
      st.info.status = .SOLVED) ↔ ∃ x, qp.uncross.Feasible x := by
  constructor
  · intro h
    by_contra hinf
    obtain ⟨e, he, hn⟩ := infeasible_not_solved qp.uncross_consistent hinf
    obtain ⟨m, st, h1, h2⟩ := h e he
    rw [crossed_bounds] at h1
    have := hn both lin sq { cfg with maxIter := m, epsAbs := e, epsRel := e } xg yg old st hrho le_rfl he.le le_rfl h1
    rw [h2] at this
    cases this
  · intro hf tol ht
    obtain ⟨n, hn⟩ := feasible_eventually_solved (cfg := { cfg with epsAbs := tol, epsRel := tol }) (sq := sq) (xg := xg) (yg := yg) (old := old) hex
      (QP.uncross_convex hconv) hf hsig hrho halpha ho hadapt hcheck ht ht.le
    obtain ⟨st, h1, h2⟩ := hn n le_rfl
    rw [← crossed_bounds] at h1
    exact ⟨n, st, h1, h2⟩

end Real
end PolyMPC.BoxAdmm
