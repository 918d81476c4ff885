import Verif.Model.BoxAdmmRounded
import Verif.Props.AdmmRounded
import Verif.Props.BoxAdmm

/-!
# Properties C205-C206: boxADMM in floating-point arithmetic

* C205: what SOLVED means, as `Verif.Props.AdmmRounded` does for ADMM. Residuals, violation of the constraints, signs of
  the multipliers and the objective, for every linear solver.
* C206: the step-size update of the KKT matrix in place can destroy it.
-/

set_option linter.unusedSectionVars false

namespace PolyMPC.BoxAdmmR
open Matrix PolyMPC.Spec PolyMPC.QPBase PolyMPC.BoxAdmm PolyMPC.Rounding
open PolyMPC.Admm (StepResult dualScale clip_mem clip_of_lt clip_of_gt)
open PolyMPC.AdmmR (classify primalResidual dualResidual abs_of_near near_abs infNorm_le_of dualResidual_bound
  dualScale_bound tolerance_bound dual_step near_optimal near_row dualTol)

variable {N M : ℕ} {ar : Arith} {ε : ℝ} {g : ℕ → ℝ}
variable {both : Bool} {lin : KktMat ℝ N M → (KktIdx N M → ℝ) → (KktIdx N M → ℝ)} {cfg : Settings ℝ}
  {qp : QP ℝ N M} {xg : Fin N → ℝ} {yg : Fin M ⊕ Fin N → ℝ} {old : State ℝ N M}

/-! ## Without rounding this is the model of `Verif.Model.BoxAdmm` -/

section exact
variable (sq : ℝ → ℝ)

theorem rhoVecUpdate_exact (r : ℝ) (st : State ℝ N M) :
    rhoVecUpdate (Arith.exact sq) r st = BoxAdmm.rhoVecUpdate r st := by
  have : ∀ t, rhoEntry (Arith.exact sq) t r = BoxAdmm.rhoEntry t r := fun t => by cases t <;> rfl
  have hd : ∀ a, (Arith.exact sq).div 1 a = a⁻¹ := fun a => one_div a
  simp only [rhoVecUpdate, BoxAdmm.rhoVecUpdate, this, hd]

theorem constructKkt_exact (s : ℝ) (H : Matrix (Fin N) (Fin N) ℝ) (A : Matrix (Fin M) (Fin N) ℝ)
    (rb : Fin N → ℝ) (d : Fin M → ℝ) (o : KktMat ℝ N M) :
    constructKkt (Arith.exact sq) both s H A rb d o = BoxAdmm.constructKkt both s H A rb d o := by
  have : (Matrix.of fun i j => if i = j then (Arith.exact sq).add ((Arith.exact sq).add (H i j) s) (rb i) else H i j) =
      H + (Matrix.diagonal fun _ => s) + Matrix.diagonal rb := by
    ext i j
    rw [Matrix.add_apply, Matrix.add_apply, Matrix.diagonal_apply, Matrix.diagonal_apply, Matrix.of_apply]
    by_cases h : i = j <;> simp [h, Arith.exact]
  unfold constructKkt BoxAdmm.constructKkt
  rw [this]

theorem admmUpdate_exact (st : State ℝ N M) :
    admmUpdate (Arith.exact sq) lin cfg qp st = BoxAdmm.admmUpdate lin cfg qp st := by
  have hr : kktRhs (Arith.exact sq) cfg.sigma qp.h st = BoxAdmm.kktRhs cfg.sigma qp.h st := by
    funext i
    rcases i with i | i <;> simp [kktRhs, BoxAdmm.kktRhs, Arith.exact] <;> ring
  have hm : ∀ a b c, (Arith.exact sq).mulAdd a b c = c + a * b := fun a b c => add_comm _ _
  have hx : ∀ v : Fin N → ℝ, xUpdate (Arith.exact sq) cfg.alpha v = BoxAdmm.xUpdate cfg.alpha v := by
    intro v
    funext i
    simp only [xUpdate, BoxAdmm.xUpdate, hm]
    rfl
  have h1 : ∀ a b, (Arith.exact sq).sub a b = a - b := fun _ _ => rfl
  have h2 : ∀ a b c d, (Arith.exact sq).lin2 a b c d = a * b + c * d := fun _ _ _ _ => rfl
  have h3 : ∀ a b, (Arith.exact sq).add a b = a + b := fun _ _ => rfl
  have h4 : ∀ a b, (Arith.exact sq).mul a b = a * b := fun _ _ => rfl
  simp only [admmUpdate, hr, hx, hm, h1, h2, h3, h4]
  rfl

theorem residualsUpdate_exact (st : State ℝ N M) :
    residualsUpdate (Arith.exact sq) qp st = BoxAdmm.residualsUpdate qp st := rfl

theorem terminationCriteria_exact (st : State ℝ N M) :
    terminationCriteria (Arith.exact sq) cfg st = BoxAdmm.terminationCriteria cfg st := by
  rw [Bool.eq_iff_iff]
  simp only [terminationCriteria, BoxAdmm.terminationCriteria, epsPrim, epsDual, BoxAdmm.epsPrim, BoxAdmm.epsDual,
    Arith.exact, add_comm, Bool.and_eq_true, decide_eq_true_eq]
  exact ⟨fun h => ⟨decide_eq_true h.1, decide_eq_true h.2⟩, fun h => ⟨of_decide_eq_true h.1, of_decide_eq_true h.2⟩⟩

theorem updateKktRho_exact (st : State ℝ N M) : updateKktRho (Arith.exact sq) st = BoxAdmm.updateKktRho st := by
  unfold updateKktRho BoxAdmm.updateKktRho
  congr 1

theorem adaptRho_exact (st : State ℝ N M) : adaptRho (Arith.exact sq) cfg st = BoxAdmm.adaptRho sq cfg st := by
  have h : ∀ r, clampRho (Arith.exact sq) r = BoxAdmm.clampRho r := fun _ => rfl
  have he : ∀ r, estimateRho (Arith.exact sq) st r = BoxAdmm.estimateRho sq st r := fun _ => rfl
  simp only [adaptRho, BoxAdmm.adaptRho, h, he, rhoVecUpdate_exact, updateKktRho_exact]
  rfl

theorem body_exact (it : ℤ) (st : State ℝ N M) :
    body (Arith.exact sq) lin cfg qp it st = BoxAdmm.body lin sq cfg qp it st := by
  simp only [body, BoxAdmm.body, admmUpdate_exact, residualsUpdate_exact, terminationCriteria_exact, adaptRho_exact]

theorem loop_exact (n : ℕ) : ∀ (it : ℤ) (st : State ℝ N M),
    loop (Arith.exact sq) lin cfg qp n it st = BoxAdmm.loop lin sq cfg qp n it st := by
  induction n with
  | zero => intro it st; rfl
  | succ n ih =>
    intro it st
    simp only [loop, BoxAdmm.loop, body_exact, ih]
    cases BoxAdmm.body lin sq cfg qp it st <;> rfl

theorem setup_exact : setup (Arith.exact sq) both cfg qp xg yg old = BoxAdmm.setup both cfg qp xg yg old := by
  simp only [setup, BoxAdmm.setup, rhoVecUpdate_exact, constructKkt_exact]
  rfl

/-- With exact arithmetic the model with rounding is the model over a field. -/
theorem solve_exact : solve (Arith.exact sq) both lin cfg qp xg yg old = BoxAdmm.solve both lin sq cfg qp xg yg old := by
  simp only [solve, BoxAdmm.solve, loop_exact, setup_exact]
  cases BoxAdmm.loop lin sq cfg qp cfg.maxIter.toNat 1 (BoxAdmm.setup both cfg qp xg yg old) <;> rfl

end exact

/-! ## How a call ends -/

/-- Step sizes and their inverses match. -/
structure Inv (ar : Arith) (st : State ℝ N M) : Prop where
  rho : 0 < st.rho
  rv : ∀ i, 0 < st.rhoVec i
  ri : ∀ i, st.rhoInvVec i = ar.div 1 (st.rhoVec i)
  rb : ∀ i, 0 < st.rhoVecBox i
  rbi : ∀ i, st.rhoVecBoxInv i = ar.div 1 (st.rhoVecBox i)

theorem rhoEntry_pos (hu : Accurate ar ε g) (t : ConstraintType) {r : ℝ} (h : 0 < r) : 0 < rhoEntry ar t r := by
  cases t
  · exact h
  · exact hu.mul_pos (by unfold rhoEqFactor; norm_num) h
  · exact hu.lit_pos rhoMin_pos

theorem inv_rhoVecUpdate (hu : Accurate ar ε g) {r : ℝ} (h : 0 < r) (st : State ℝ N M) : Inv ar (rhoVecUpdate ar r st) :=
  ⟨h, fun _ => rhoEntry_pos hu _ h, fun _ => rfl, fun _ => rhoEntry_pos hu _ h, fun _ => rfl⟩

theorem inv_setup (hu : Accurate ar ε g) (hrho : 0 < cfg.rho) : Inv ar (setup ar both cfg qp xg yg old) := by
  have h := inv_rhoVecUpdate hu hrho { old with
    x := xg, y := yg, z := fun i => ar.dot N (qp.A i) xg, q := xg
    constrType := fun i => classify ar (qp.Alb i) (qp.Aub i)
    boxType := fun i => classify ar (qp.xlb i) (qp.xub i) }
  exact ⟨h.rho, h.rv, h.ri, h.rb, h.rbi⟩

theorem inv_adaptRho (hu : Accurate ar ε g) {st : State ℝ N M} (h : Inv ar st) : Inv ar (adaptRho ar cfg st) := by
  unfold adaptRho
  simp only
  split_ifs with hc
  · have hp : 0 < clampRho ar (estimateRho ar st st.rho) := lt_max_of_lt_left (hu.lit_pos rhoMin_pos)
    have := inv_rhoVecUpdate hu hp { st with
      info := { st.info with rhoEstimate := clampRho ar (estimateRho ar st st.rho) }, rhoVecBoxPrev := st.rhoVecBox }
    exact ⟨this.rho, this.rv, this.ri, this.rb, this.rbi⟩
  · exact ⟨h.rho, h.rv, h.ri, h.rb, h.rbi⟩

/-- What one pass of the loop can do. -/
theorem body_spec (hu : Accurate ar ε g) {it : ℤ} {st : State ℝ N M} (h : Inv ar st) :
    (∀ s, body ar lin cfg qp it st = .cont s → Inv ar s) ∧
    (∀ s, body ar lin cfg qp it st = .brk s → checkNow cfg it = true ∧
      s = { residualsUpdate ar qp (admmUpdate ar lin cfg qp st) with
        info := { (residualsUpdate ar qp (admmUpdate ar lin cfg qp st)).info with status := .SOLVED } } ∧
      terminationCriteria ar cfg (residualsUpdate ar qp (admmUpdate ar lin cfg qp st)) = true) := by
  have h1 : Inv ar (admmUpdate ar lin cfg qp st) := ⟨h.rho, h.rv, h.ri, h.rb, h.rbi⟩
  have h2 : ∀ s, Inv ar s → Inv ar (residualsUpdate ar qp s) := fun s hs => ⟨hs.rho, hs.rv, hs.ri, hs.rb, hs.rbi⟩
  unfold body
  cases hc : checkNow cfg it with
  | true =>
    simp only [if_true, Bool.true_and]
    split_ifs with ht ha h0 hm
    · exact ⟨by simp, fun s hs => by cases hs; exact ⟨trivial, rfl, ht⟩⟩
    · exact ⟨by simp, by simp⟩
    · exact ⟨fun s hs => by cases hs; exact inv_adaptRho hu (h2 _ h1), by simp⟩
    · exact ⟨fun s hs => by cases hs; exact h2 _ h1, by simp⟩
    · exact ⟨fun s hs => by cases hs; exact h2 _ h1, by simp⟩
  | false =>
    simp only [Bool.false_and, Bool.false_eq_true, if_false]
    split_ifs with ha h0 hm
    · exact ⟨by simp, by simp⟩
    · exact ⟨fun s hs => by cases hs; exact inv_adaptRho hu (h2 _ h1), by simp⟩
    · exact ⟨fun s hs => by cases hs; exact h1, by simp⟩
    · exact ⟨fun s hs => by cases hs; exact h1, by simp⟩

theorem loop_spec (hu : Accurate ar ε g) (n : ℕ) : ∀ (it : ℤ) (st : State ℝ N M), Inv ar st → ∀ it' st',
    loop ar lin cfg qp n it st = some (it', st') →
    it' = it + n ∨ (it ≤ it' ∧ it' < it + n ∧ ∃ s, Inv ar s ∧ body ar lin cfg qp it' s = .brk st') := by
  induction n with
  | zero =>
    intro it st _ it' st' h
    simp only [loop, Option.some.injEq, Prod.mk.injEq] at h
    left; rw [← h.1]; simp
  | succ n ih =>
    intro it st hi it' st' h
    simp only [loop] at h
    split at h
    · cases h
    · rename_i s hb
      simp only [Option.some.injEq, Prod.mk.injEq] at h
      obtain ⟨rfl, rfl⟩ := h
      exact Or.inr ⟨le_rfl, by push_cast; omega, st, hi, hb⟩
    · rename_i s hb
      rcases ih (it + 1) s ((body_spec hu hi).1 s hb) it' st' h with h1 | ⟨h1, h2, h3⟩
      · left; rw [h1]; push_cast; ring
      · exact Or.inr ⟨by omega, by push_cast; omega, h3⟩

/-- The two ways a call can end. -/
theorem solve_cases (hu : Accurate ar ε g) (hrho : 0 < cfg.rho) {st : State ℝ N M}
    (h : solve ar both lin cfg qp xg yg old = some st) :
    (st.info.status = .SOLVED ∧ 1 ≤ st.info.iter ∧ st.info.iter ≤ cfg.maxIter ∧ checkNow cfg st.info.iter = true ∧
      ∃ s it, Inv ar s ∧ terminationCriteria ar cfg (residualsUpdate ar qp (admmUpdate ar lin cfg qp s)) = true ∧
        st = { residualsUpdate ar qp (admmUpdate ar lin cfg qp s) with
          info := { (residualsUpdate ar qp (admmUpdate ar lin cfg qp s)).info with status := .SOLVED, iter := it } }) ∨
    (st.info.status = .MAX_ITER_EXCEEDED ∧ st.info.iter = max cfg.maxIter 0 + 1) := by
  unfold solve at h
  split at h
  · cases h
  · rename_i it s' hl
    simp only [Option.some.injEq] at h
    rcases loop_spec hu _ _ _ (inv_setup hu hrho) _ _ hl with h1 | ⟨h1, h2, s, hi, hb⟩
    · right
      rw [Int.toNat_eq_max] at h1
      have hgt : it > cfg.maxIter := by omega
      rw [if_pos hgt] at h
      subst h
      exact ⟨rfl, by show it = _; omega⟩
    · left
      have hle : ¬ it > cfg.maxIter := by
        rw [Int.toNat_eq_max] at h2; omega
      rw [if_neg hle] at h
      obtain ⟨hc, rfl, ht⟩ := (body_spec hu hi).2 _ hb
      subst h
      exact ⟨rfl, h1, not_lt.mp hle, hc, s, it, hi, ht, rfl⟩

/-- C205. The status is SOLVED with an iteration number within the limit, or MAX_ITER_EXCEEDED. -/
theorem status_cases (hu : Accurate ar ε g) (hrho : 0 < cfg.rho) {st : State ℝ N M}
    (h : solve ar both lin cfg qp xg yg old = some st) :
    (st.info.status = .SOLVED ∧ 1 ≤ st.info.iter ∧ st.info.iter ≤ cfg.maxIter ∧ cfg.checkTermination ∣ st.info.iter) ∨
    (st.info.status = .MAX_ITER_EXCEEDED ∧ st.info.iter = max cfg.maxIter 0 + 1) := by
  rcases solve_cases hu hrho h with ⟨h1, h2, h3, h4, _⟩ | h1
  · simp only [checkNow, Bool.and_eq_true, decide_eq_true_eq] at h4
    exact Or.inl ⟨h1, h2, h3, Int.dvd_of_tmod_eq_zero h4.2⟩
  · exact Or.inr h1

/-! ## Residuals -/

/-- The reported primal residual is a sum of two norms. -/
theorem add_parts (hu : Accurate ar ε g) {a b : ℝ} (ha : 0 ≤ a) (hb : 0 ≤ b) :
    a ≤ ar.add a b / (1 - ε) ∧ b ≤ ar.add a b / (1 - ε) := by
  have h1 := (abs_le.mp (hu.add a b)).1
  rw [abs_of_nonneg (add_nonneg ha hb)] at h1
  have hp : 0 < 1 - ε := by linarith [hu.eps1]
  have h2 : a + b ≤ ar.add a b / (1 - ε) := by rw [le_div_iff₀ hp]; linarith
  constructor <;> linarith

/-- The reported primal residual and the true one. -/
theorem resPrim_bound (hu : Accurate ar ε g) (st : State ℝ N M) (i : Fin M ⊕ Fin N) :
    |qp.rows st.x i - st.aux i| ≤ (residualsUpdate ar qp st).info.resPrim / (1 - ε) +
      ((1 + ε) * g N - 1) * (qp.absRows st.x i + |st.aux i|) := by
  have hp := add_parts hu (infNorm_nonneg fun i => ar.sub (ar.dot N (qp.A i) st.x) (st.z i))
    (infNorm_nonneg fun i => ar.sub (st.x i) (st.q i))
  rcases i with i | i
  · refine abs_of_near (hu.near_sub (near_row hu st.x i) ((Near.refl (st.z i)).mono (hu.g1 N))) ?_
    exact (le_infNorm (fun i => ar.sub (ar.dot N (qp.A i) st.x) (st.z i)) i).trans hp.1
  · refine abs_of_near (hu.near_sub ((Near.refl (st.x i)).mono (hu.g1 N)) ((Near.refl (st.q i)).mono (hu.g1 N))) ?_
    exact (le_infNorm (fun i => ar.sub (st.x i) (st.q i)) i).trans hp.2

/-- The scale of the primal test. -/
theorem maxAxZ_bound (hu : Accurate ar ε g) (st : State ℝ N M) :
    (residualsUpdate ar qp st).maxAxZ ≤ boxPrimalScale qp st.x st.z + (g N - 1) * infNorm (qp.absRows st.x) := by
  have hg : 0 ≤ g N - 1 := by linarith [hu.g1 N]
  have hc : 0 ≤ (g N - 1) * infNorm (qp.absRows st.x) := mul_nonneg hg (infNorm_nonneg _)
  have h1 : (infNorm fun i => ar.dot N (qp.A i) st.x) ≤ infNorm (qp.A *ᵥ st.x) + (g N - 1) * infNorm (qp.absRows st.x) := by
    refine infNorm_le_of hc fun i => (near_abs (near_row hu st.x i)).trans (add_le_add le_rfl ?_)
    refine mul_le_mul_of_nonneg_left ?_ hg
    exact (le_abs_self _).trans (le_infNorm (qp.absRows st.x) (Sum.inl i))
  show max (infNorm fun i => ar.dot N (qp.A i) st.x) (max (infNorm st.z) (infNorm st.x)) ≤ _
  unfold boxPrimalScale
  set a := infNorm (qp.A *ᵥ st.x)
  set b := infNorm st.z
  set c := infNorm st.x
  have m1 : a ≤ max a (max b c) := le_max_left _ _
  have m2 : b ≤ max a (max b c) := le_max_of_le_right (le_max_left _ _)
  have m3 : c ≤ max a (max b c) := le_max_of_le_right (le_max_right _ _)
  refine max_le ?_ (max_le ?_ ?_) <;> linarith

/-- Tolerance of the primal test, with the errors of its evaluation. -/
noncomputable def primalTol (ε : ℝ) (g : ℕ → ℝ) (cfg : Settings ℝ) (qp : QP ℝ N M) (x : Fin N → ℝ) (z : Fin M → ℝ) : ℝ :=
  (1 + ε) ^ 2 * (cfg.epsAbs + cfg.epsRel * (boxPrimalScale qp x z + (g N - 1) * infNorm (qp.absRows x))) / (1 - ε)

/-- C205. If `solve` reports SOLVED, the true residuals of the optimality conditions are within the tolerances, up to the
rounding errors of their evaluation. The linear solver does not matter. -/
theorem solved_residuals (hu : Accurate ar ε g) (hrho : 0 < cfg.rho) (ha : 0 ≤ cfg.epsAbs) (hr : 0 ≤ cfg.epsRel)
    {st : State ℝ N M} (h : solve ar both lin cfg qp xg yg old = some st) (hs : st.info.status = .SOLVED) :
    (∀ i, |qp.rows st.x i - st.aux i| ≤ primalTol ε g cfg qp st.x st.z +
      ((1 + ε) * g N - 1) * (qp.absRows st.x i + |st.aux i|)) ∧
    (∀ i, |qp.lagrangianGradient st.x st.y i| ≤ dualTol ε g cfg qp st.x st.y +
      ((1 + ε) ^ 3 * max (g N) (g M) - 1) * qp.absGradient st.x st.y i) ∧
    (∀ i, |qp.rows st.x i - st.aux i| ≤ st.info.resPrim / (1 - ε) +
      ((1 + ε) * g N - 1) * (qp.absRows st.x i + |st.aux i|)) ∧
    (∀ i, |qp.lagrangianGradient st.x st.y i| ≤ st.info.resDual +
      ((1 + ε) ^ 3 * max (g N) (g M) - 1) * qp.absGradient st.x st.y i) := by
  rcases solve_cases hu hrho h with ⟨_, _, _, _, s, it, hi, ht, rfl⟩ | ⟨h1, _⟩
  swap
  · rw [h1] at hs; cases hs
  set t := admmUpdate ar lin cfg qp s with hts
  simp only [terminationCriteria, Bool.and_eq_true, decide_eq_true_eq] at ht
  have b1 := resPrim_bound hu t (qp := qp)
  have b2 := dualResidual_bound hu t.x t.y (qp := qp)
  have t1 := ht.1.trans (tolerance_bound hu hr ha (le_max_of_le_right (le_max_of_le_left (infNorm_nonneg t.z)))
    (maxAxZ_bound hu t))
  have hd := dualScale_bound hu t.x t.y (qp := qp) (v := fun i => ar.dot M (fun j => qp.A j i) (headM t.y)) (fun i => by
    have := hu.near_dot M (fun j => qp.A j i) (headM t.y)
    rw [dotProduct_comm] at this
    have e : ∑ j, |qp.A j i * headM t.y j| = ∑ j, |headM t.y j * qp.A j i| :=
      Finset.sum_congr rfl fun j _ => by rw [mul_comm]
    rw [e] at this
    exact this)
  have t2 := ht.2.trans (tolerance_bound hu hr ha (le_max_of_le_left (infNorm_nonneg _)) hd)
  have hp : 0 < 1 - ε := by linarith [hu.eps1]
  refine ⟨fun i => (b1 i).trans (add_le_add ?_ le_rfl), fun i => (b2 i).trans (add_le_add t2 le_rfl), b1, b2⟩
  exact div_le_div_of_nonneg_right t1 hp.le

/-! ## Bounds and multipliers -/

/-- As `dual_step`, for the bounds of the variables. -/
theorem box_step (hu : Accurate ar ε g) {x q rho ri y v1 y' : ℝ} (hrho : 0 < rho) (hri : ri = ar.div 1 rho)
    (hv : v1 = ar.mulAdd ri y x) (hy : y' = ar.mulAdd rho (ar.sub x q) y) :
    |y' - rho * (v1 - q)| ≤ 2 * ((1 + ε) ^ 5 - 1) * (|y| + rho * (|x| + |q|)) ∧
    |y| ≤ |y'| + rho * (|x| + |q|) + ((1 + ε) ^ 5 - 1) * (|y| + rho * (|x| + |q|)) := by
  have n2 := hu.near_sub (Near.refl x) (Near.refl q)
  have n3 := (Near.refl rho).times n2
  have n4 := hu.near_mulAdd n3 ((Near.refl y).mono n3.1)
  rw [← hy, abs_of_pos hrho] at n4
  have n5 := n4.mono (G' := (1 + ε) ^ 5) (by
    have : (1 + ε) ^ 2 * (1 * ((1 + ε) * 1)) = (1 + ε) ^ 3 := by ring
    rw [this]; exact hu.pow_mono (by norm_num))
  have m1 := hu.near_div 1 hrho.ne'
  rw [← hri] at m1
  have m2 := m1.times (Near.refl y)
  have m3 := hu.near_mulAdd m2 ((Near.refl x).mono m2.1)
  rw [← hv] at m3
  have m4 := m3.mono (G' := (1 + ε) ^ 5) (by
    have : (1 + ε) ^ 2 * ((1 + ε) * 1) = (1 + ε) ^ 3 := by ring
    rw [this]; exact hu.pow_mono (by norm_num))
  have mag : |1 / rho| * |y| + |x| = |x| + |y| / rho := by
    rw [abs_of_pos (one_div_pos.mpr hrho)]; ring
  rw [mag] at m4
  have a1 := n5.2.1
  have a2 := mul_le_mul_of_nonneg_left m4.2.1 hrho.le
  have hη : 0 ≤ (1 + ε) ^ 5 - 1 := sub_nonneg.mpr (one_le_pow₀ hu.one_le)
  have hz0 := abs_nonneg q
  constructor
  · have d : y' - rho * (v1 - q) = (y' - (rho * (x - q) + y)) - rho * (v1 - (1 / rho * y + x)) := by
      field_simp; ring
    rw [d]
    refine (abs_sub _ _).trans ?_
    rw [abs_mul rho, abs_of_pos hrho]
    have r1 : rho * (((1 + ε) ^ 5 - 1) * (|x| + |y| / rho)) = ((1 + ε) ^ 5 - 1) * (rho * |x| + |y|) := by field_simp
    rw [r1] at a2
    have r2 : ((1 + ε) ^ 5 - 1) * (rho * |x| + |y|) ≤ ((1 + ε) ^ 5 - 1) * (|y| + rho * (|x| + |q|)) := by
      apply mul_le_mul_of_nonneg_left _ hη
      nlinarith [mul_nonneg hrho.le hz0]
    linarith
  · have d : y = y' - (y' - (rho * (x - q) + y)) - rho * (x - q) := by ring
    have s1 : |y| ≤ |y'| + |y' - (rho * (x - q) + y)| + |rho * (x - q)| := by
      conv_lhs => rw [d]
      exact (abs_sub _ _).trans (add_le_add (abs_sub _ _) le_rfl)
    have s2 : |rho * (x - q)| ≤ rho * (|x| + |q|) := by
      rw [abs_mul, abs_of_pos hrho]
      exact mul_le_mul_of_nonneg_left (abs_sub _ _) hrho.le
    linarith

/-- Error bound of the multipliers at SOLVED, from the data members of the solver. -/
noncomputable def dualErr (ε : ℝ) (cfg : Settings ℝ) (st : State ℝ N M) : Fin M ⊕ Fin N → ℝ :=
  Sum.elim
    (fun i => 4 * ((1 + ε) ^ 5 - 1) * (|st.y (Sum.inl i)| +
      2 * st.rhoVec i * (|cfg.alpha * st.zTilde i| + (1 + ε) * |(1 - cfg.alpha) * st.zPrev i| + |st.z i|)))
    (fun i => 4 * ((1 + ε) ^ 5 - 1) * (|st.y (Sum.inr i)| + 2 * st.rhoVecBox i * (|st.x i| + |st.q i|)))

/-- From the two bounds of a step to the sign condition. -/
theorem sign_of_step {η ρ W W' y0 y1 v z l u : ℝ} (hη0 : 0 ≤ η) (hη1 : η ≤ 1 / 2) (hρ : 0 < ρ) (hW0 : 0 ≤ W) (hW : W ≤ W') (hl : l ≤ u)
    (hz : z = min (max v l) u) (d1 : |y1 - ρ * (v - z)| ≤ 2 * η * (|y0| + ρ * W))
    (d2 : |y0| ≤ |y1| + ρ * W + η * (|y0| + ρ * W)) :
    (l ≤ z ∧ z ≤ u) ∧ (4 * η * (|y1| + 2 * ρ * W') < y1 → z = u) ∧ (y1 < -(4 * η * (|y1| + 2 * ρ * W')) → z = l) := by
  have hρW := mul_le_mul_of_nonneg_left hW hρ.le
  have hδ : 2 * η * (|y0| + ρ * W) ≤ 4 * η * (|y1| + 2 * ρ * W') := by
    have hn : 0 ≤ |y0| + ρ * W := by positivity
    have q1 : |y0| + ρ * W ≤ 2 * (|y1| + 2 * (ρ * W')) := by nlinarith
    have := mul_le_mul_of_nonneg_left q1 (mul_nonneg (by norm_num : (0 : ℝ) ≤ 2) hη0)
    linarith
  have d3 := abs_le.mp (d1.trans hδ)
  refine ⟨by rw [hz]; exact clip_mem hl, fun hy1 => ?_, fun hy1 => ?_⟩
  · have : 0 < ρ * (v - z) := by linarith [d3.2]
    have := (mul_pos_iff_of_pos_left hρ).mp this
    rw [hz] at this ⊢
    exact clip_of_lt (by linarith)
  · have : ρ * (v - z) < 0 := by linarith [d3.1]
    have := (pos_iff_neg_of_mul_neg this).mp hρ
    rw [hz] at this ⊢
    exact clip_of_gt hl (by linarith)

/-- C205. At SOLVED the auxiliary vectors are exactly within the bounds and the multipliers have the right signs up to
rounding. -/
theorem solved_dual (hu : Accurate ar ε g) (hsmall : (1 + ε) ^ 5 ≤ 3 / 2) (hc : qp.Consistent) (hrho : 0 < cfg.rho)
    {st : State ℝ N M} (h : solve ar both lin cfg qp xg yg old = some st) (hs : st.info.status = .SOLVED) :
    QP.InNormalConeUpTo (dualErr ε cfg st) qp.lower qp.upper st.aux st.y := by
  rcases solve_cases hu hrho h with ⟨_, _, _, _, s, it, hi, _, rfl⟩ | ⟨h1, _⟩
  swap
  · rw [h1] at hs; cases hs
  have hη0 : 0 ≤ (1 + ε) ^ 5 - 1 := sub_nonneg.mpr (one_le_pow₀ hu.one_le)
  set t := admmUpdate ar lin cfg qp s with ht
  intro i
  rcases i with i | i
  · have hβ : |ar.sub 1 cfg.alpha * s.z i| ≤ (1 + ε) * |(1 - cfg.alpha) * s.z i| := by
      rw [abs_mul, abs_mul, ← mul_assoc]
      refine mul_le_mul_of_nonneg_right ?_ (abs_nonneg _)
      have := hu.sub 1 cfg.alpha
      have h1 := abs_sub_abs_le_abs_sub (ar.sub 1 cfg.alpha) (1 - cfg.alpha)
      linarith
    obtain ⟨d1, d2⟩ := dual_step hu (α := cfg.alpha) (zt := t.zTilde i) (zp := s.z i) (y := s.y (Sum.inl i)) (z := t.z i)
      (y' := t.y (Sum.inl i)) (hi.rv i) (hi.ri i) rfl rfl
    exact sign_of_step hη0 (by linarith) (hi.rv i) (by positivity)
      (add_le_add (add_le_add le_rfl hβ) le_rfl) (hc (Sum.inl i)) rfl d1 d2
  · obtain ⟨d1, d2⟩ := box_step hu (x := t.x i) (q := t.q i) (y := s.y (Sum.inr i)) (y' := t.y (Sum.inr i))
      (hi.rb i) (hi.rbi i) rfl rfl
    exact sign_of_step hη0 (by linarith) (hi.rb i) (by positivity) le_rfl (hc (Sum.inr i)) rfl d1 d2

/-- C205. Violation of the constraints at SOLVED. -/
theorem solved_violation (hu : Accurate ar ε g) (hc : qp.Consistent) (hrho : 0 < cfg.rho)
    (ha : 0 ≤ cfg.epsAbs) (hr : 0 ≤ cfg.epsRel) {st : State ℝ N M}
    (h : solve ar both lin cfg qp xg yg old = some st) (hs : st.info.status = .SOLVED) (i : Fin M ⊕ Fin N) :
    qp.lower i - (primalTol ε g cfg qp st.x st.z + ((1 + ε) * g N - 1) * (qp.absRows st.x i + |st.aux i|)) ≤ qp.rows st.x i ∧
    qp.rows st.x i ≤ qp.upper i + (primalTol ε g cfg qp st.x st.z + ((1 + ε) * g N - 1) * (qp.absRows st.x i + |st.aux i|)) := by
  obtain ⟨h1, _, _, _⟩ := solved_residuals hu hrho ha hr h hs
  rcases solve_cases hu hrho h with ⟨_, _, _, _, s, it, hi, _, hst⟩ | ⟨h0, _⟩
  swap
  · rw [h0] at hs; cases hs
  have hb : qp.lower i ≤ st.aux i ∧ st.aux i ≤ qp.upper i := by
    rw [hst]
    rcases i with i | i
    · exact clip_mem (hc (Sum.inl i))
    · exact clip_mem (hc (Sum.inr i))
  have := abs_le.mp (h1 i)
  constructor <;> linarith [this.1, this.2, hb.1, hb.2]

/-- C205. At SOLVED the objective is near-optimal for convex QPs. -/
theorem solved_near_optimal (hu : Accurate ar ε g) (hsmall : (1 + ε) ^ 5 ≤ 3 / 2) (hconv : qp.Convex) (hc : qp.Consistent)
    (hrho : 0 < cfg.rho) (ha : 0 ≤ cfg.epsAbs) (hr : 0 ≤ cfg.epsRel) {st : State ℝ N M}
    (h : solve ar both lin cfg qp xg yg old = some st) (hs : st.info.status = .SOLVED)
    (w : Fin N → ℝ) (hw : qp.Feasible w) :
    qp.objective st.x ≤ qp.objective w
      + dualTol ε g cfg qp st.x st.y * oneNorm (st.x - w)
      + primalTol ε g cfg qp st.x st.z * oneNorm st.y
      + (((1 + ε) ^ 3 * max (g N) (g M) - 1) * ∑ i, qp.absGradient st.x st.y i * |st.x i - w i|
        + ((1 + ε) * g N - 1) * ∑ i, (qp.absRows st.x i + |st.aux i|) * |st.y i|
        + ∑ i, dualErr ε cfg st i * |qp.rows w i - st.aux i|) := by
  obtain ⟨h1, h2, _, _⟩ := solved_residuals hu hrho ha hr h hs
  have := near_optimal hconv (solved_dual hu hsmall hc hrho h hs) hw h2 h1
  simp only [add_mul, Finset.sum_add_distrib, ← Finset.mul_sum, mul_assoc] at this
  unfold oneNorm
  simp only [Pi.sub_apply, add_mul, Finset.sum_add_distrib] at this ⊢
  linarith

/-! ## The step-size update of the KKT matrix -/

/-- One variable in `[-1, 1]`, no constraints, objective `r x`. -/
def lpQP (r : ℝ) : QP ℝ 1 0 where
  H := fun _ _ => 0
  h := fun _ => r
  A := fun i _ => i.elim0
  Alb := fun i => i.elim0
  Aub := fun i => i.elim0
  xlb := fun _ => -1
  xub := fun _ => 1

theorem lpQP_convex (r : ℝ) : (lpQP r).Convex := by
  refine ⟨?_, fun v => ?_⟩
  · ext i j; rfl
  · simp [lpQP, dotProduct, mulVec]

theorem round_half (p : ℕ) (t : ℝ) : |roundBits p t - t| ≤ 1 / 2 * |t| := by
  refine (roundBits_error p t).trans (mul_le_mul_of_nonneg_right ?_ (abs_nonneg _))
  rw [pow_succ]
  have : (1 : ℝ) ≤ 2 ^ p := one_le_pow₀ (by norm_num)
  rw [div_le_div_iff₀ (by positivity) (by norm_num)]
  linarith

theorem roundBits_pow (p k : ℕ) : roundBits p (2 ^ k) = 2 ^ k ∧ roundBits p (-2 ^ k) = -2 ^ k := by
  have h := roundBits_absorb p k (δ := 0) le_rfl (zpow_pos (by norm_num) _)
  rw [add_zero, zero_sub] at h
  exact h

/-- Settings with the default tolerances and regularisation, and the step size 128. -/
noncomputable def floatCfg : Settings ℝ :=
  { epsRel := 1 / 1000, epsAbs := 1 / 1000, maxIter := 1000, rho := 128, sigma := 1 / 1000000, alpha := 1, checkTermination := 1,
    adaptiveRho := true, adaptiveRhoTolerance := 5, adaptiveRhoInterval := 1 }

/-- C206. In floating-point arithmetic the update of the step size in the KKT matrix loses the small entries: with the
step size `2 ^ k` (`128` in single precision), the matrix factorised after the first update is zero, although the Hessian
is positive semidefinite, `sigma` is positive and the new step size is positive. -/
theorem updated_kkt_singular (p k : ℕ) {sq : ℝ → ℝ} (hsq : sq 0 = 0) {lin : KktMat ℝ 1 0 → (KktIdx 1 0 → ℝ) → (KktIdx 1 0 → ℝ)}
    (hex : ExactSolver both lin) {cfg : Settings ℝ} (hs0 : 0 < cfg.sigma) (hs1 : cfg.sigma < 2 ^ ((k : ℤ) - p - 3))
    (hk : 2 / 1000000 < (2 : ℝ) ^ ((k : ℤ) - p - 2)) (hrho : cfg.rho = 2 ^ k) (hal : cfg.alpha = 1)
    (ha : 0 ≤ cfg.epsAbs ∧ cfg.epsAbs ≤ 1 / 10) (hr : 0 ≤ cfg.epsRel ∧ cfg.epsRel ≤ 1 / 10)
    (hct : cfg.checkTermination = 1) (had : cfg.adaptiveRho = true) (hin : cfg.adaptiveRhoInterval = 1)
    (htol : 0 < cfg.adaptiveRhoTolerance ∧ cfg.adaptiveRhoTolerance ≤ 10) (old : State ℝ 1 0) :
    ∃ s, body (Arith.plain (roundBits p) sq) lin cfg (lpQP (2 ^ k)) 1
        (setup (Arith.plain (roundBits p) sq) both cfg (lpQP (2 ^ k)) 0 0 old) = .cont s ∧
      s.fact = 0 ∧ (∀ i, 0 < s.rhoVecBox i) ∧ s.x = fun _ => -1 := by
  obtain ⟨f0, f1, f2, f3⟩ := AdmmR.exRound p
  obtain ⟨fr, fnr⟩ := roundBits_pow p k
  have hR1 : (1 : ℝ) ≤ 2 ^ k := one_le_pow₀ (by norm_num)
  set P := Arith.plain (roundBits p) sq with hP
  have hadd : ∀ a b, P.add a b = roundBits p (a + b) := fun _ _ => rfl
  have hsub : ∀ a b, P.sub a b = roundBits p (a - b) := fun _ _ => rfl
  have hmul : ∀ a b, P.mul a b = roundBits p (a * b) := fun _ _ => rfl
  have hdiv : ∀ a b, P.div a b = roundBits p (a / b) := fun _ _ => rfl
  have hma : ∀ a b c, P.mulAdd a b c = roundBits p (roundBits p (a * b) + c) := fun _ _ _ => rfl
  have hd1 : ∀ a b, P.dot 1 a b = roundBits p (0 + roundBits p (a 0 * b 0)) := fun _ _ => by
    simp [hP, Arith.plain, Fin.foldl_succ]
  have hd0 : ∀ a b, P.dot 0 a b = 0 := fun _ _ => rfl
  have hlit : ∀ a, P.lit a = roundBits p a := fun _ => rfl
  -- the literal
  have hmu0 : 0 < P.lit rhoMin ∧ P.lit rhoMin ≤ 2 / 1000000 := by
    have h := abs_le.mp (round_half p (rhoMin : ℝ))
    rw [abs_of_pos (rhoMin_pos (K := ℝ))] at h
    have e : (rhoMin : ℝ) = 1 / 1000000 := rfl
    have h1 := h.1
    have h2 := h.2
    rw [hlit]
    constructor
    · have := rhoMin_pos (K := ℝ)
      linarith
    · linarith
  have hcl : classify P (-1) 1 = .INEQUALITY_CONSTRAINT := by
    have he : ¬ P.sub 1 (-1) < P.lit eqTol := by
      have h := abs_le.mp (round_half p (eqTol : ℝ))
      have e : (eqTol : ℝ) = 1 / 10000 := rfl
      have e1 : (1 : ℝ) - -1 = 2 := by norm_num
      have h2 := h.2
      rw [abs_of_pos (by rw [e]; norm_num)] at h2
      rw [hsub, hlit, e1, f2]
      linarith
    have hn : ¬ ((-1 : ℝ) < -looseBoundsThresh ∧ (1 : ℝ) > looseBoundsThresh) := by
      unfold looseBoundsThresh
      norm_num
    rw [AdmmR.classify, if_neg hn, if_neg he]
  -- the state before the loop
  set s := setup P both cfg (lpQP (2 ^ k)) 0 0 old with hs
  have sx : s.x = 0 := rfl
  have sy : s.y = 0 := rfl
  have sq0 : s.q = 0 := rfl
  have sb : s.boxType = fun _ => .INEQUALITY_CONSTRAINT := by funext i; exact hcl
  have sr : s.rhoVecBox = fun _ => 2 ^ k := by
    funext i
    show rhoEntry P (classify P (-1) 1) cfg.rho = _
    rw [hcl, ← hrho]; rfl
  have srho : s.rho = 2 ^ k := hrho
  have sf : s.fact = Matrix.of fun _ _ => (2 : ℝ) ^ k := by
    ext i j
    rcases i with i | i
    swap
    · exact i.elim0
    rcases j with j | j
    swap
    · exact j.elim0
    rw [Subsingleton.elim i 0, Subsingleton.elim j 0]
    have e : s.fact (Sum.inl 0) (Sum.inl 0) = P.add (P.add 0 cfg.sigma) (s.rhoVecBox 0) := rfl
    rw [e, sr, hadd, hadd, zero_add, Matrix.of_apply]
    have hb := abs_le.mp (round_half p cfg.sigma)
    rw [abs_of_pos hs0] at hb
    have e8 : (2 : ℝ) ^ ((k : ℤ) - p - 2) = 2 * 2 ^ ((k : ℤ) - p - 3) := by
      have : (k : ℤ) - p - 2 = (k - p - 3) + 1 := by ring
      rw [this, zpow_add₀ (by norm_num)]; norm_num; ring
    rw [add_comm]
    exact (roundBits_absorb p k (by linarith [hb.1]) (by rw [e8]; linarith [hb.2])).1
  have skk : s.kkt = s.fact := rfl
  -- the pass
  set t := admmUpdate P lin cfg (lpQP (2 ^ k)) s with ht
  have hrhs : kktRhs P cfg.sigma (lpQP (2 ^ k)).h s = fun _ => -2 ^ k := by
    funext i
    rcases i with i | i
    swap
    · exact i.elim0
    show P.sub (P.mulAdd (s.rhoVecBox i) (s.q i) (P.mulAdd cfg.sigma (s.x i) (-(2 ^ k)))) (tailN s.y i) = _
    rw [sx, sy, sq0, hsub, hma, hma]
    simp [tailN, f0, fnr]
  have hsol : ∀ i, lin s.fact (kktRhs P cfg.sigma (lpQP (2 ^ k)).h s) i = -1 := by
    have hE : effective both s.fact = Matrix.of fun _ _ => (2 : ℝ) ^ k := by
      unfold effective
      split_ifs
      · exact sf
      · ext i j
        rcases i with i | i
        swap
        · exact i.elim0
        rcases j with j | j
        swap
        · exact j.elim0
        rw [sf, Subsingleton.elim i 0, Subsingleton.elim j 0]
        simp [readLower]
    have hdet : (effective both s.fact).det ≠ 0 := by
      rw [hE]
      rw [Matrix.det_eq_elem_of_card_eq_one (by simp) (Sum.inl 0)]
      simp
    have h := hex s.fact (kktRhs P cfg.sigma (lpQP (2 ^ k)).h s) hdet
    intro i
    rcases i with i | i
    swap
    · exact i.elim0
    rw [Subsingleton.elim i 0]
    have h2 := congrFun h (Sum.inl 0)
    rw [hE] at h2
    conv_rhs at h2 => rw [hrhs]
    simp [mulVec, dotProduct] at h2
    have hne : (2 : ℝ) ^ k ≠ 0 := by positivity
    apply mul_left_cancel₀ hne
    linarith
  have tx : t.x = fun _ => -1 := by
    funext i
    show P.mulAdd (P.sub 1 cfg.alpha) (P.mul cfg.alpha (lin s.fact _ (Sum.inl i))) (P.mul cfg.alpha (lin s.fact _ (Sum.inl i))) = _
    rw [hsol, hal, hma, hmul, hsub]
    simp [f0, f3]
  have tq : t.q = fun _ => -1 := by
    funext i
    show min (max (P.mulAdd (s.rhoVecBoxInv i) (tailN s.y i) (t.x i)) (-1)) 1 = _
    rw [tx, sy, hma]
    simp [tailN, f0, f3]
  have ty : t.y = 0 := by
    funext i
    rcases i with i | i
    · exact i.elim0
    show P.mulAdd (s.rhoVecBox i) (P.sub (t.x i) (t.q i)) (tailN s.y i) = 0
    rw [tx, tq, sy, hma, hsub]
    simp [tailN, f0]
  set u := residualsUpdate P (lpQP (2 ^ k)) t with hu'
  have u1 : u.info.resPrim = 0 := by
    show P.add (infNorm fun i : Fin 0 => P.sub (P.dot 1 ((lpQP (2 ^ k)).A i) t.x) (t.z i)) (infNorm fun i => P.sub (t.x i) (t.q i)) = 0
    rw [tx, tq]
    simp [hadd, hsub, f0, infNorm]
  have u2 : u.info.resDual = 2 ^ k := by
    show (infNorm fun i => P.add (P.add (P.add (P.dot 1 ((lpQP (2 ^ k)).H i) t.x) ((lpQP (2 ^ k)).h i)) (P.dot 0 _ (headM t.y))) (tailN t.y i)) = _
    simp [ty, tailN, hd1, hd0, lpQP, hadd, f0, fr, infNorm]
  have u3 : u.maxHxATyh = 2 ^ k := by
    show max (infNorm fun i => P.dot 1 ((lpQP (2 ^ k)).H i) t.x) (max (infNorm fun i => P.dot 0 _ (headM t.y)) (max (infNorm (lpQP (2 ^ k)).h) (infNorm (tailN t.y)))) = _
    simp [ty, tailN, hd1, hd0, lpQP, f0, infNorm]
  have hter : terminationCriteria P cfg u = false := by
    have hb1 := (abs_le.mp (round_half p (cfg.epsRel * 2 ^ k))).2
    have hb2 := (abs_le.mp (round_half p (roundBits p (cfg.epsRel * 2 ^ k) + cfg.epsAbs))).2
    have hb0 := (abs_le.mp (round_half p (cfg.epsRel * 2 ^ k))).1
    have hn : 0 ≤ cfg.epsRel * 2 ^ k := mul_nonneg hr.1 (by positivity)
    have hm : cfg.epsRel * 2 ^ k ≤ 1 / 10 * 2 ^ k := mul_le_mul_of_nonneg_right hr.2 (by positivity)
    rw [abs_of_nonneg hn] at hb1 hb0
    rw [abs_of_nonneg (by linarith [ha.1])] at hb2
    have hlt : ¬ u.info.resDual ≤ epsDual P cfg u := by
      rw [u2, epsDual, u3, hma]
      linarith [ha.2]
    simp [terminationCriteria, hlt]
  have hest : estimateRho P u u.rho = 0 := by
    show P.mul u.rho (P.sqrt (P.div (P.div u.info.resPrim _) _)) = 0
    have hsr : ∀ a, P.sqrt a = roundBits p (sq a) := fun _ => rfl
    rw [u1]
    simp [hdiv, hmul, hsr, f0, hsq]
  have hcl2 : clampRho P (estimateRho P u u.rho) = P.lit rhoMin := by
    rw [hest, clampRho]
    have e : (0 : ℝ) ≤ rhoMax := by norm_num [rhoMax]
    rw [min_eq_left e, max_eq_left hmu0.1.le]
  have urho : u.rho = 2 ^ k := hrho
  have hcond : P.lit rhoMin < P.div u.rho cfg.adaptiveRhoTolerance := by
    rw [urho, hdiv]
    have h := (abs_le.mp (round_half p (2 ^ k / cfg.adaptiveRhoTolerance))).1
    have hq : (2 : ℝ) ^ k / 10 ≤ 2 ^ k / cfg.adaptiveRhoTolerance :=
      div_le_div_of_nonneg_left (by positivity) htol.1 htol.2
    rw [abs_of_nonneg (le_trans (by positivity) hq)] at h
    linarith [hmu0.2]
  refine ⟨adaptRho P cfg u, ?_, ?_, ?_, ?_⟩
  · have hc : checkNow cfg 1 = true := by simp [checkNow, hct]
    simp only [body, hc, if_true, ← ht, ← hu', hter, Bool.and_false, Bool.false_eq_true, if_false, had, hin]
    norm_num
  · unfold adaptRho
    simp only [hcl2]
    rw [if_pos (Or.inl hcond)]
    ext i j
    rcases i with i | i
    swap
    · exact i.elim0
    rcases j with j | j
    swap
    · exact j.elim0
    rw [Subsingleton.elim i 0, Subsingleton.elim j 0]
    show P.add (s.kkt (Sum.inl 0) (Sum.inl 0)) (P.sub (rhoEntry P (s.boxType 0) (P.lit rhoMin)) (s.rhoVecBox 0)) = 0
    rw [skk, sf, sr, sb, hadd, hsub]
    have hx := (roundBits_absorb p k hmu0.1.le (lt_of_le_of_lt hmu0.2 hk)).2
    show roundBits p (2 ^ k + roundBits p (P.lit rhoMin - 2 ^ k)) = 0
    rw [hx]
    simp [f0]
  · intro i
    unfold adaptRho
    simp only [hcl2]
    rw [if_pos (Or.inl hcond)]
    show 0 < rhoEntry P (s.boxType i) (P.lit rhoMin)
    rw [sb]
    exact hmu0.1
  · unfold adaptRho
    simp only [hcl2]
    rw [if_pos (Or.inl hcond)]
    exact tx

/-- C206 for `float`, with the default `sigma` and tolerances. -/
theorem updated_kkt_singular_float {lin : KktMat ℝ 1 0 → (KktIdx 1 0 → ℝ) → (KktIdx 1 0 → ℝ)}
    (hex : ExactSolver both lin) {sq : ℝ → ℝ} (hsq : sq 0 = 0) (old : State ℝ 1 0) :
    ∃ s, body (Arith.plain (roundBits 23) sq) lin floatCfg (lpQP 128) 1
        (setup (Arith.plain (roundBits 23) sq) both floatCfg (lpQP 128) 0 0 old) = .cont s ∧
      s.fact = 0 ∧ (∀ i, 0 < s.rhoVecBox i) ∧ s.x = fun _ => -1 := by
  have e : (128 : ℝ) = 2 ^ 7 := by norm_num
  rw [e]
  refine updated_kkt_singular 23 7 hsq hex ?_ ?_ ?_ ?_ rfl ?_ ?_ rfl rfl rfl ?_ old <;> norm_num [floatCfg]

/-- An exact linear solver exists. -/
example : ∃ lin : KktMat ℝ 1 0 → (KktIdx 1 0 → ℝ) → (KktIdx 1 0 → ℝ), ExactSolver both lin :=
  ⟨fun A b => (effective both A)⁻¹ *ᵥ b, fun A b h => by
    rw [mulVec_mulVec, mul_nonsing_inv _ (isUnit_iff_ne_zero.mpr h), one_mulVec]⟩

/-! ## A run with rounding -/

noncomputable def exCfg : Settings ℝ :=
  { epsRel := 0, epsAbs := 1, maxIter := 1, rho := 1, sigma := 1, alpha := 1, checkTermination := 1,
    adaptiveRho := false, adaptiveRhoTolerance := 5, adaptiveRhoInterval := 3 }

/-- The hypotheses of C205 are met by a run with rounding: it ends with SOLVED at the solution `x = 1`, with the
multiplier `1` of the active upper bound. -/
example (sq : ℝ → ℝ) (old : State ℝ 1 0) : ∃ st, solve (Arith.plain (roundBits 52) sq) true (fun _ _ _ => 1) exCfg AdmmR.exQP (fun _ => 1) (fun _ => 1) old = some st ∧
    st.info.status = .SOLVED ∧ st.x = (fun _ => 1) ∧ st.y = fun _ => 1 := by
  obtain ⟨f0, f1, f2, f3⟩ := AdmmR.exRound 52
  have he : ¬ (1 : ℝ) < roundBits 52 eqTol := by
    have := (abs_le.mp (roundBits_error 52 eqTol)).2
    rw [abs_of_pos (by unfold eqTol; norm_num)] at this
    have h2 : (eqTol : ℝ) = 1 / 10000 := rfl
    rw [h2] at this ⊢
    norm_num at this ⊢
    linarith
  set P := Arith.plain (roundBits 52) sq with hP
  set s := setup P true exCfg AdmmR.exQP (fun _ => 1) (fun _ => 1) old with hs
  have hx : s.x = fun _ => 1 := rfl
  have hy : s.y = fun _ => 1 := rfl
  have hr : s.rhoVecBox = fun _ => 1 := by
    funext i
    show rhoEntry P (AdmmR.classify P 0 1) 1 = 1
    simp [AdmmR.classify, rhoEntry, hP, Arith.plain, f1, he, looseBoundsThresh]
  have hri : s.rhoVecBoxInv = fun _ => 1 := by
    funext i
    show P.div 1 (s.rhoVecBox i) = 1
    rw [hr]
    simp [hP, Arith.plain, f1]
  set t := admmUpdate P (fun _ _ _ => 1) exCfg AdmmR.exQP s with ht
  have tx : t.x = fun _ => 1 := by
    funext i
    show P.mulAdd (P.sub 1 1) (P.mul 1 1) (P.mul 1 1) = 1
    simp [hP, Arith.plain, f0, f1]
  have tq : t.q = fun _ => 1 := by
    funext i
    show min (max (P.mulAdd (s.rhoVecBoxInv i) (tailN s.y i) (t.x i)) 0) 1 = 1
    rw [hri, tx, hy]
    norm_num [hP, Arith.plain, tailN, f1, f2]
  have ty : t.y = fun _ => 1 := by
    funext i
    rcases i with i | i
    · exact i.elim0
    show P.mulAdd (s.rhoVecBox i) (P.sub (t.x i) (t.q i)) (tailN s.y i) = 1
    rw [hr, tx, tq, hy]
    simp [hP, Arith.plain, tailN, f0, f1]
  have hterm : terminationCriteria P exCfg (residualsUpdate P AdmmR.exQP t) = true := by
    have e1 : (residualsUpdate P AdmmR.exQP t).info.resPrim = 0 := by
      show P.add (infNorm fun i : Fin 0 => P.sub (P.dot 1 (AdmmR.exQP.A i) t.x) (t.z i)) (infNorm fun i => P.sub (t.x i) (t.q i)) = 0
      rw [tx, tq]
      simp [hP, Arith.plain, f0, infNorm]
    have e2 : (residualsUpdate P AdmmR.exQP t).info.resDual = 0 := by
      norm_num [residualsUpdate, AdmmR.dualResidual, infNorm, tailN, headM, tx, ty, hP, Arith.plain, f0, f1, f3, AdmmR.exQP, Fin.foldl_succ]
    have hm : ∀ a, P.mulAdd 0 a 1 = 1 := fun a => by simp [hP, Arith.plain, f0, f1]
    have e3 : ∀ a, P.mulAdd exCfg.epsRel a exCfg.epsAbs = 1 := hm
    simp [terminationCriteria, e1, e2, epsPrim, epsDual, e3]
  have hb : body P (fun _ _ _ => 1) exCfg AdmmR.exQP 1 s = .brk { residualsUpdate P AdmmR.exQP t with
      info := { (residualsUpdate P AdmmR.exQP t).info with status := .SOLVED } } := by
    have hc : checkNow exCfg 1 = true := by simp [checkNow, exCfg]
    simp only [body, hc, ← ht, hterm, if_true, Bool.and_self]
  have hl : loop P (fun _ _ _ => 1) exCfg AdmmR.exQP exCfg.maxIter.toNat 1 s = some (1, { residualsUpdate P AdmmR.exQP t with
      info := { (residualsUpdate P AdmmR.exQP t).info with status := .SOLVED } }) := by
    have hm : exCfg.maxIter.toNat = 1 := rfl
    rw [hm]
    simp only [loop, hb]
  have hn : ¬ (1 : ℤ) > exCfg.maxIter := by simp [exCfg]
  refine ⟨{ residualsUpdate P AdmmR.exQP t with
      info := { (residualsUpdate P AdmmR.exQP t).info with status := .SOLVED, iter := 1 } }, ?_, rfl, tx, ty⟩
  unfold solve
  rw [hl]
  simp only [if_neg hn]

end PolyMPC.BoxAdmmR
