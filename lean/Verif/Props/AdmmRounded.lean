import Verif.Model.AdmmRounded
import Verif.Lemmas.Rounding
import Verif.Spec.RoundingMag
import Verif.Props.AdmmOptimality

/-!
# Properties C202-C204: what SOLVED of ADMM means in floating-point arithmetic

All theorems hold for every arithmetic with the error bounds of `Accurate`, every linear solver (accurate or not), every
problem size, every guess and every previous state of the solver.
-/

set_option linter.unusedSectionVars false

namespace PolyMPC.AdmmR
open Matrix PolyMPC.Spec PolyMPC.QPBase PolyMPC.Admm PolyMPC.Rounding

variable {N M : ℕ} {ar : Arith} {ε : ℝ} {g : ℕ → ℝ}
variable {both : Bool} {lin : KktMat ℝ N M → (KktIdx N M → ℝ) → (KktIdx N M → ℝ)} {cfg : Settings ℝ}
  {qp : QP ℝ N M} {xg : Fin N → ℝ} {yg : Fin M ⊕ Fin N → ℝ} {old : State ℝ N M}

/-! ## Without rounding this is the model of `Verif.Model.Admm` -/

section exact
variable (sq : ℝ → ℝ)

theorem classify_exact (l u : ℝ) : classify (Arith.exact sq) l u = QPBase.classify l u := rfl

theorem rhoVecUpdate_exact (r : ℝ) (st : State ℝ N M) :
    rhoVecUpdate (Arith.exact sq) r st = Admm.rhoVecUpdate r st := by
  have : ∀ t, rhoEntry (Arith.exact sq) t r = Admm.rhoEntry t r := fun t => by cases t <;> rfl
  have hd : ∀ a, (Arith.exact sq).div 1 a = a⁻¹ := fun a => one_div a
  simp only [rhoVecUpdate, Admm.rhoVecUpdate, this, hd]

theorem constructKkt_exact (s : ℝ) (H : Matrix (Fin N) (Fin N) ℝ) (A : Matrix (Fin M ⊕ Fin N) (Fin N) ℝ)
    (d : Fin M ⊕ Fin N → ℝ) (o : KktMat ℝ N M) :
    constructKkt (Arith.exact sq) both s H A d o = Admm.constructKkt both s H A d o := by
  have : (Matrix.of fun i j => if i = j then (Arith.exact sq).add (H i j) s else H i j) = H + Matrix.diagonal fun _ => s := by
    ext i j
    rw [Matrix.add_apply, Matrix.diagonal_apply, Matrix.of_apply]
    by_cases h : i = j <;> simp [h, Arith.exact]
  unfold constructKkt Admm.constructKkt
  rw [this]

theorem admmUpdate_exact (st : State ℝ N M) :
    admmUpdate (Arith.exact sq) lin cfg qp st = Admm.admmUpdate lin cfg qp st := by
  have hr : kktRhs (Arith.exact sq) cfg.sigma qp.h st = Admm.kktRhs cfg.sigma qp.h st := by
    funext i
    rcases i with i | i <;> simp [kktRhs, Admm.kktRhs, Arith.exact] <;> ring
  have hz : ∀ i, (Arith.exact sq).mulAdd (st.rhoInvVec i)
      ((Arith.exact sq).sub (lin st.fact (Admm.kktRhs cfg.sigma qp.h st) (Sum.inr i)) (st.y i)) (st.z i) =
      st.z i + st.rhoInvVec i * (lin st.fact (Admm.kktRhs cfg.sigma qp.h st) (Sum.inr i) - st.y i) := by
    intro i
    exact add_comm _ _
  simp only [admmUpdate, hr, hz]
  simp only [Admm.admmUpdate, Arith.exact]
  congr 1
  funext i
  exact add_comm _ _

theorem residualsUpdate_exact (st : State ℝ N M) :
    residualsUpdate (Arith.exact sq) qp st = Admm.residualsUpdate qp st := by
  rfl

theorem terminationCriteria_exact (st : State ℝ N M) :
    terminationCriteria (Arith.exact sq) cfg st = Admm.terminationCriteria cfg st := by
  rw [Bool.eq_iff_iff]
  simp only [terminationCriteria, Admm.terminationCriteria, epsPrim, epsDual, Admm.epsPrim, Admm.epsDual, Arith.exact,
    add_comm, Bool.and_eq_true, decide_eq_true_eq]
  exact ⟨fun h => ⟨decide_eq_true h.1, decide_eq_true h.2⟩, fun h => ⟨of_decide_eq_true h.1, of_decide_eq_true h.2⟩⟩

theorem adaptRho_exact (st : State ℝ N M) : adaptRho (Arith.exact sq) cfg st = Admm.adaptRho sq cfg st := by
  have h : ∀ r, clampRho (Arith.exact sq) r = Admm.clampRho r := fun _ => rfl
  have he : ∀ r, estimateRho (Arith.exact sq) st r = Admm.estimateRho sq st r := fun _ => rfl
  simp only [adaptRho, Admm.adaptRho, h, he, rhoVecUpdate_exact]
  rfl

theorem body_exact (it : ℤ) (st : State ℝ N M) :
    body (Arith.exact sq) lin cfg qp it st = Admm.body lin sq cfg qp it st := by
  simp only [body, Admm.body, admmUpdate_exact, residualsUpdate_exact, terminationCriteria_exact, adaptRho_exact]

theorem loop_exact (n : ℕ) : ∀ (it : ℤ) (st : State ℝ N M),
    loop (Arith.exact sq) lin cfg qp n it st = Admm.loop lin sq cfg qp n it st := by
  induction n with
  | zero => intro it st; rfl
  | succ n ih =>
    intro it st
    simp only [loop, Admm.loop, body_exact, ih]
    cases Admm.body lin sq cfg qp it st <;> rfl

theorem setup_exact : setup (Arith.exact sq) both cfg qp xg yg old = Admm.setup both cfg qp xg yg old := by
  simp only [setup, Admm.setup, rhoVecUpdate_exact, constructKkt_exact]
  rfl

/-- With exact arithmetic the model with rounding is the model over a field. -/
theorem solve_exact : solve (Arith.exact sq) both lin cfg qp xg yg old = Admm.solve both lin sq cfg qp xg yg old := by
  simp only [solve, Admm.solve, loop_exact, setup_exact]
  cases Admm.loop lin sq cfg qp cfg.maxIter.toNat 1 (Admm.setup both cfg qp xg yg old) <;> rfl

end exact

/-! ## How a call ends -/

/-- Step sizes and their inverses match. -/
structure Inv (ar : Arith) (st : State ℝ N M) : Prop where
  rho : 0 < st.rho
  rv : ∀ i, 0 < st.rhoVec i
  ri : ∀ i, st.rhoInvVec i = ar.div 1 (st.rhoVec i)

theorem rhoEntry_pos (hu : Accurate ar ε g) (t : ConstraintType) {r : ℝ} (h : 0 < r) : 0 < rhoEntry ar t r := by
  cases t
  · exact h
  · exact hu.mul_pos (by unfold rhoEqFactor; norm_num) h
  · exact hu.lit_pos rhoMin_pos

theorem inv_rhoVecUpdate (hu : Accurate ar ε g) {r : ℝ} (h : 0 < r) (st : State ℝ N M) : Inv ar (rhoVecUpdate ar r st) := by
  refine ⟨h, fun i => ?_, fun i => rfl⟩
  rcases i with i | i <;> exact rhoEntry_pos hu _ h

theorem inv_setup (hu : Accurate ar ε g) (hrho : 0 < cfg.rho) : Inv ar (setup ar both cfg qp xg yg old) := by
  have h := inv_rhoVecUpdate hu hrho { old with
    x := xg, y := yg, A := constructA qp.A, z := fun i => ar.dot N (constructA qp.A i) xg
    constrType := fun i => classify ar (qp.Alb i) (qp.Aub i)
    boxType := fun i => classify ar (qp.xlb i) (qp.xub i) }
  exact ⟨h.rho, h.rv, h.ri⟩

theorem inv_adaptRho (hu : Accurate ar ε g) {st : State ℝ N M} (h : Inv ar st) : Inv ar (adaptRho ar cfg st) := by
  unfold adaptRho
  simp only
  split_ifs with hc
  · have hp : 0 < clampRho ar (estimateRho ar st st.rho) := lt_max_of_lt_left (hu.lit_pos rhoMin_pos)
    have := inv_rhoVecUpdate hu hp { st with info := { st.info with rhoEstimate := clampRho ar (estimateRho ar st st.rho) } }
    exact ⟨this.rho, this.rv, this.ri⟩
  · exact ⟨h.rho, h.rv, h.ri⟩

/-- What one pass of the loop can do. -/
theorem body_spec (hu : Accurate ar ε g) {it : ℤ} {st : State ℝ N M} (h : Inv ar st) :
    (∀ s, body ar lin cfg qp it st = .cont s → Inv ar s) ∧
    (∀ s, body ar lin cfg qp it st = .brk s → checkNow cfg it = true ∧
      s = { residualsUpdate ar qp (admmUpdate ar lin cfg qp st) with
        info := { (residualsUpdate ar qp (admmUpdate ar lin cfg qp st)).info with status := .SOLVED } } ∧
      terminationCriteria ar cfg (residualsUpdate ar qp (admmUpdate ar lin cfg qp st)) = true) := by
  have h1 : Inv ar (admmUpdate ar lin cfg qp st) := ⟨h.rho, h.rv, h.ri⟩
  have h2 : ∀ s, Inv ar s → Inv ar (residualsUpdate ar qp s) := fun s hs => ⟨hs.rho, hs.rv, hs.ri⟩
  unfold body
  cases hc : checkNow cfg it with
  | true =>
    simp only [if_true, Bool.true_and]
    split_ifs with ht ha h0 hm
    · exact ⟨by simp, fun s hs => by cases hs; exact ⟨trivial, rfl, ht⟩⟩
    · exact ⟨by simp, by simp⟩
    · exact ⟨fun s hs => by cases hs; exact inv_adaptRho hu (h2 _ h1), by simp⟩
    · exact ⟨fun s hs => by cases hs; exact h2 _ h1, by simp⟩
    · exact ⟨fun s hs => by cases hs; exact h2 _ h1, by simp⟩
  | false =>
    simp only [Bool.false_and, Bool.false_eq_true, if_false]
    split_ifs with ha h0 hm
    · exact ⟨by simp, by simp⟩
    · exact ⟨fun s hs => by cases hs; exact inv_adaptRho hu (h2 _ h1), by simp⟩
    · exact ⟨fun s hs => by cases hs; exact h1, by simp⟩
    · exact ⟨fun s hs => by cases hs; exact h1, by simp⟩

theorem loop_spec (hu : Accurate ar ε g) (n : ℕ) : ∀ (it : ℤ) (st : State ℝ N M), Inv ar st → ∀ it' st',
    loop ar lin cfg qp n it st = some (it', st') →
    it' = it + n ∨ (it ≤ it' ∧ it' < it + n ∧ ∃ s, Inv ar s ∧ body ar lin cfg qp it' s = .brk st') := by
  induction n with
  | zero =>
    intro it st _ it' st' h
    simp only [loop, Option.some.injEq, Prod.mk.injEq] at h
    left; rw [← h.1]; simp
  | succ n ih =>
    intro it st hi it' st' h
    simp only [loop] at h
    split at h
    · cases h
    · rename_i s hb
      simp only [Option.some.injEq, Prod.mk.injEq] at h
      obtain ⟨rfl, rfl⟩ := h
      exact Or.inr ⟨le_rfl, by push_cast; omega, st, hi, hb⟩
    · rename_i s hb
      rcases ih (it + 1) s ((body_spec hu hi).1 s hb) it' st' h with h1 | ⟨h1, h2, h3⟩
      · left; rw [h1]; push_cast; ring
      · exact Or.inr ⟨by omega, by push_cast; omega, h3⟩

/-- The two ways a call can end. -/
theorem solve_cases (hu : Accurate ar ε g) (hrho : 0 < cfg.rho) {st : State ℝ N M}
    (h : solve ar both lin cfg qp xg yg old = some st) :
    (st.info.status = .SOLVED ∧ 1 ≤ st.info.iter ∧ st.info.iter ≤ cfg.maxIter ∧ checkNow cfg st.info.iter = true ∧
      ∃ s, Inv ar s ∧
        st.x = (admmUpdate ar lin cfg qp s).x ∧ st.y = (admmUpdate ar lin cfg qp s).y ∧
        st.z = (admmUpdate ar lin cfg qp s).z ∧ st.zPrev = s.z ∧ st.zTilde = (admmUpdate ar lin cfg qp s).zTilde ∧
        st.rhoVec = s.rhoVec ∧
        st.info.resPrim = (residualsUpdate ar qp (admmUpdate ar lin cfg qp s)).info.resPrim ∧
        st.info.resDual = (residualsUpdate ar qp (admmUpdate ar lin cfg qp s)).info.resDual ∧
        terminationCriteria ar cfg (residualsUpdate ar qp (admmUpdate ar lin cfg qp s)) = true) ∨
    (st.info.status = .MAX_ITER_EXCEEDED ∧ st.info.iter = max cfg.maxIter 0 + 1) := by
  unfold solve at h
  split at h
  · cases h
  · rename_i it s' hl
    simp only [Option.some.injEq] at h
    rcases loop_spec hu _ _ _ (inv_setup hu hrho) _ _ hl with h1 | ⟨h1, h2, s, hi, hb⟩
    · right
      rw [Int.toNat_eq_max] at h1
      have hgt : it > cfg.maxIter := by omega
      rw [if_pos hgt] at h
      subst h
      exact ⟨rfl, by show it = _; omega⟩
    · left
      have hle : ¬ it > cfg.maxIter := by
        rw [Int.toNat_eq_max] at h2; omega
      rw [if_neg hle] at h
      obtain ⟨hc, rfl, ht⟩ := (body_spec hu hi).2 _ hb
      subst h
      exact ⟨rfl, h1, not_lt.mp hle, hc, s, hi, rfl, rfl, rfl, rfl, rfl, rfl, rfl, rfl, ht⟩

/-- C202. The status is SOLVED with an iteration number within the limit, or MAX_ITER_EXCEEDED. -/
theorem status_cases (hu : Accurate ar ε g) (hrho : 0 < cfg.rho) {st : State ℝ N M}
    (h : solve ar both lin cfg qp xg yg old = some st) :
    (st.info.status = .SOLVED ∧ 1 ≤ st.info.iter ∧ st.info.iter ≤ cfg.maxIter ∧ cfg.checkTermination ∣ st.info.iter) ∨
    (st.info.status = .MAX_ITER_EXCEEDED ∧ st.info.iter = max cfg.maxIter 0 + 1) := by
  rcases solve_cases hu hrho h with ⟨h1, h2, h3, h4, _⟩ | h1
  · simp only [checkNow, Bool.and_eq_true, decide_eq_true_eq] at h4
    exact Or.inl ⟨h1, h2, h3, Int.dvd_of_tmod_eq_zero h4.2⟩
  · exact Or.inr h1

/-! ## C202: residuals -/

theorem near_row (hu : Accurate ar ε g) (x : Fin N → ℝ) (i : Fin M) :
    Near (g N) (qp.absRows x (Sum.inl i)) (ar.dot N (qp.A i) x) (qp.rows x (Sum.inl i)) :=
  hu.near_dot N (qp.A i) x

theorem abs_of_near {G A a' a r : ℝ} (h : Near G A a' a) (hr : |a'| ≤ r) : |a| ≤ r + (G - 1) * A := by
  have h1 := abs_sub_abs_le_abs_sub a a'
  have h2 := abs_sub_comm a a'
  linarith [h.2.1]

/-- The reported primal residual and the true one. -/
theorem resPrim_bound (hu : Accurate ar ε g) (st : State ℝ N M) (i : Fin M ⊕ Fin N) :
    |qp.rows st.x i - st.z i| ≤ (residualsUpdate ar qp st).info.resPrim +
      ((1 + ε) * g N - 1) * (qp.absRows st.x i + |st.z i|) := by
  rcases i with i | i
  · refine abs_of_near (hu.near_sub (near_row hu st.x i) ((Near.refl _).mono (hu.g1 N))) ?_
    exact le_max_of_le_left (le_infNorm (fun i => ar.sub (ar.dot N (qp.A i) st.x) (headM st.z i)) i)
  · refine abs_of_near (hu.near_sub ((Near.refl (st.x i)).mono (hu.g1 N)) ((Near.refl _).mono (hu.g1 N))) ?_
    exact le_max_of_le_right (le_infNorm (fun i => ar.sub (st.x i) (tailN st.z i)) i)

/-- The reported dual residual and the true one. -/
theorem dualResidual_bound (hu : Accurate ar ε g) (x : Fin N → ℝ) (y : Fin M ⊕ Fin N → ℝ) (i : Fin N) :
    |qp.lagrangianGradient x y i| ≤ dualResidual ar qp.H qp.h qp.A x y +
      ((1 + ε) ^ 3 * max (g N) (g M) - 1) * qp.absGradient x y i := by
  set G := max (g N) (g M) with hG
  have hG1 : 1 ≤ G := le_max_of_le_left (hu.g1 N)
  have hGε : G ≤ (1 + ε) * G := by nlinarith [hu.eps0]
  have hGε2 : (1 + ε) * G ≤ (1 + ε) * ((1 + ε) * G) := by nlinarith [hu.eps0]
  have n1 := (hu.near_dot N (qp.H i) x).mono (le_max_left (g N) (g M))
  have n2 := hu.near_add n1 ((Near.refl (qp.h i)).mono hG1)
  have n3 := hu.near_add n2 (((hu.near_dot M (fun j => qp.A j i) (headM y)).mono (le_max_right (g N) (g M))).mono hGε)
  have n4 := hu.near_add n3 (((Near.refl (tailN y i)).mono hG1).mono (hGε.trans hGε2))
  have hc := le_infNorm (fun i => ar.add (ar.add (ar.add (ar.dot N (qp.H i) x) (qp.h i)) (ar.dot M (fun j => qp.A j i) (headM y)))
    (tailN y i)) i
  have e : (1 + ε) * ((1 + ε) * ((1 + ε) * G)) = (1 + ε) ^ 3 * G := by ring
  rw [e] at n4
  have hg : qp.lagrangianGradient x y i =
      (qp.H i ⬝ᵥ x + qp.h i + (fun j => qp.A j i) ⬝ᵥ headM y + tailN y i) := rfl
  have hm : qp.absGradient x y i = (∑ j, |qp.H i j * x j|) + |qp.h i| + (∑ j, |qp.A j i * headM y j|) + |tailN y i| := rfl
  rw [hg, hm]
  exact abs_of_near n4 hc

theorem resDual_bound (hu : Accurate ar ε g) (st : State ℝ N M) (i : Fin N) :
    |qp.lagrangianGradient st.x st.y i| ≤ (residualsUpdate ar qp st).info.resDual +
      ((1 + ε) ^ 3 * max (g N) (g M) - 1) * qp.absGradient st.x st.y i := dualResidual_bound hu st.x st.y i

theorem infNorm_le_of {ι : Type*} [Fintype ι] {v w : ι → ℝ} {c : ℝ} (hc : 0 ≤ c) (h : ∀ i, |v i| ≤ |w i| + c) :
    infNorm v ≤ infNorm w + c :=
  (infNorm_le_iff _).mpr ⟨add_nonneg (infNorm_nonneg w) hc, fun i => (h i).trans (by linarith [le_infNorm w i])⟩

theorem near_abs {G A a' a : ℝ} (h : Near G A a' a) : |a'| ≤ |a| + (G - 1) * A := by
  linarith [abs_sub_abs_le_abs_sub a' a, h.2.1]

/-- The scale of the primal test. -/
theorem maxAxZ_bound (hu : Accurate ar ε g) (st : State ℝ N M) :
    (residualsUpdate ar qp st).maxAxZ ≤ primalScale qp st.x st.z + (g N - 1) * infNorm (qp.absRows st.x) := by
  have hg : 0 ≤ g N - 1 := by linarith [hu.g1 N]
  have hc : 0 ≤ (g N - 1) * infNorm (qp.absRows st.x) := mul_nonneg hg (infNorm_nonneg _)
  have h1 : (infNorm fun i => ar.dot N (qp.A i) st.x) ≤ infNorm (qp.A *ᵥ st.x) + (g N - 1) * infNorm (qp.absRows st.x) := by
    refine infNorm_le_of hc fun i => (near_abs (near_row hu st.x i)).trans (add_le_add le_rfl ?_)
    refine mul_le_mul_of_nonneg_left ?_ hg
    exact (le_abs_self _).trans (le_infNorm (qp.absRows st.x) (Sum.inl i))
  have h2 : primalScale qp st.x st.z = max (max (infNorm (qp.A *ᵥ st.x)) (infNorm st.x)) (infNorm st.z) := by
    unfold primalScale QP.rows; rw [infNorm_sumElim]
  show max (max (infNorm fun i => ar.dot N (qp.A i) st.x) (infNorm st.x)) (infNorm st.z) ≤ _
  rw [h2]
  refine max_le (max_le ?_ ?_) ?_
  · refine h1.trans (add_le_add ?_ le_rfl)
    exact le_max_of_le_left (le_max_left _ _)
  · have := le_max_of_le_left (c := infNorm st.z) (le_max_right (infNorm (qp.A *ᵥ st.x)) (infNorm st.x))
    linarith
  · have := le_max_right (max (infNorm (qp.A *ᵥ st.x)) (infNorm st.x)) (infNorm st.z)
    linarith

/-- The scale of the dual test, for any way `v` to evaluate the product with the transposed matrix. -/
theorem dualScale_bound (hu : Accurate ar ε g) (x : Fin N → ℝ) (y : Fin M ⊕ Fin N → ℝ) {v : Fin N → ℝ}
    (hv : ∀ i, Near (g M) (∑ j, |headM y j * qp.A j i|) (v i) ((headM y ᵥ* qp.A) i)) :
    max (infNorm fun i => ar.dot N (qp.H i) x) (max (infNorm v) (max (infNorm qp.h) (infNorm (tailN y)))) ≤
      dualScale qp x y + (max (g N) (g M) - 1) * infNorm (qp.absGradient x y) := by
  set G := max (g N) (g M) with hG
  have hg : 0 ≤ G - 1 := by linarith [le_max_of_le_left (c := g M) (hu.g1 N)]
  have hc : 0 ≤ (G - 1) * infNorm (qp.absGradient x y) := mul_nonneg hg (infNorm_nonneg _)
  have hA : ∀ i, (∑ j, |qp.H i j * x j|) ≤ infNorm (qp.absGradient x y) ∧
      (∑ j, |headM y j * qp.A j i|) ≤ infNorm (qp.absGradient x y) := by
    intro i
    have h0 := (le_abs_self _).trans (le_infNorm (qp.absGradient x y) i)
    have e1 : (∑ j, |headM y j * qp.A j i|) = ∑ j, |qp.A j i * y (Sum.inl j)| :=
      Finset.sum_congr rfl fun j _ => by rw [mul_comm]; rfl
    have p1 : 0 ≤ ∑ j, |qp.H i j * x j| := Finset.sum_nonneg fun _ _ => abs_nonneg _
    have p2 : 0 ≤ ∑ j, |qp.A j i * y (Sum.inl j)| := Finset.sum_nonneg fun _ _ => abs_nonneg _
    have p3 := abs_nonneg (qp.h i)
    have p4 := abs_nonneg (y (Sum.inr i))
    unfold QP.absGradient at h0 ⊢
    rw [e1]
    constructor <;> linarith
  have h1 : (infNorm fun i => ar.dot N (qp.H i) x) ≤ infNorm (qp.H *ᵥ x) + (G - 1) * infNorm (qp.absGradient x y) := by
    refine infNorm_le_of hc fun i => (near_abs ((hu.near_dot N (qp.H i) x).mono (le_max_left _ (g M)))).trans
      (add_le_add le_rfl (mul_le_mul_of_nonneg_left (hA i).1 hg))
  have h2 : infNorm v ≤
      infNorm (headM y ᵥ* qp.A) + (G - 1) * infNorm (qp.absGradient x y) := by
    refine infNorm_le_of hc fun i => (near_abs ((hv i).mono (le_max_right (g N) _))).trans
      (add_le_add le_rfl (mul_le_mul_of_nonneg_left (hA i).2 hg))
  have h3 : dualScale qp x y =
      max (infNorm (qp.H *ᵥ x)) (max (infNorm (headM y ᵥ* qp.A)) (max (infNorm qp.h) (infNorm (tailN y)))) := by
    unfold dualScale
    rw [Matrix.mulVec_transpose]
    rfl
  rw [h3]
  set a := infNorm (qp.H *ᵥ x)
  set b := infNorm (headM y ᵥ* qp.A)
  set c := infNorm qp.h
  set d := infNorm (tailN y)
  have m1 : a ≤ max a (max b (max c d)) := le_max_left _ _
  have m2 : b ≤ max a (max b (max c d)) := le_max_of_le_right (le_max_left _ _)
  have m3 : c ≤ max a (max b (max c d)) := le_max_of_le_right (le_max_of_le_right (le_max_left _ _))
  have m4 : d ≤ max a (max b (max c d)) := le_max_of_le_right (le_max_of_le_right (le_max_right _ _))
  refine max_le ?_ (max_le ?_ (max_le ?_ ?_)) <;> linarith

/-- The scale of the dual test. -/
theorem maxHxATyh_bound (hu : Accurate ar ε g) (st : State ℝ N M) :
    (residualsUpdate ar qp st).maxHxATyh ≤
      dualScale qp st.x st.y + (max (g N) (g M) - 1) * infNorm (qp.absGradient st.x st.y) :=
  dualScale_bound hu st.x st.y fun i => hu.near_dot M (headM st.y) (fun j => qp.A j i)

/-- A tolerance as computed. -/
theorem tolerance_bound (hu : Accurate ar ε g) {r a s s' : ℝ} (hr : 0 ≤ r) (ha : 0 ≤ a) (hs0 : 0 ≤ s) (hs : s ≤ s') :
    ar.mulAdd r s a ≤ (1 + ε) ^ 2 * (a + r * s') := by
  have h := (hu.near_mulAdd (Near.refl (r * s)) (Near.refl a)).abs_le
  have h1 := (le_abs_self _).trans h
  rw [mul_one, abs_of_nonneg (mul_nonneg hr hs0), abs_of_nonneg ha] at h1
  refine h1.trans (mul_le_mul_of_nonneg_left ?_ (by positivity))
  have := mul_le_mul_of_nonneg_left hs hr
  linarith

/-- Tolerance of the primal test, with the errors of its evaluation. -/
noncomputable def primalTol (ε : ℝ) (g : ℕ → ℝ) (cfg : Settings ℝ) (qp : QP ℝ N M) (x : Fin N → ℝ) (z : Fin M ⊕ Fin N → ℝ) : ℝ :=
  (1 + ε) ^ 2 * (cfg.epsAbs + cfg.epsRel * (primalScale qp x z + (g N - 1) * infNorm (qp.absRows x)))

/-- Tolerance of the dual test, with the errors of its evaluation. -/
noncomputable def dualTol (ε : ℝ) (g : ℕ → ℝ) (cfg : Settings ℝ) (qp : QP ℝ N M) (x : Fin N → ℝ) (y : Fin M ⊕ Fin N → ℝ) : ℝ :=
  (1 + ε) ^ 2 * (cfg.epsAbs + cfg.epsRel * (dualScale qp x y + (max (g N) (g M) - 1) * infNorm (qp.absGradient x y)))

/-- C202. If `solve` reports SOLVED, the true residuals of the optimality conditions are within the tolerances, up to the
rounding errors of their evaluation. The linear solver does not matter. The reported residuals are within these errors of
the true ones. -/
theorem solved_residuals (hu : Accurate ar ε g) (hrho : 0 < cfg.rho) (ha : 0 ≤ cfg.epsAbs) (hr : 0 ≤ cfg.epsRel)
    {st : State ℝ N M} (h : solve ar both lin cfg qp xg yg old = some st) (hs : st.info.status = .SOLVED) :
    (∀ i, |qp.rows st.x i - st.z i| ≤ st.info.resPrim + ((1 + ε) * g N - 1) * (qp.absRows st.x i + |st.z i|)) ∧
    (∀ i, |qp.lagrangianGradient st.x st.y i| ≤ st.info.resDual +
      ((1 + ε) ^ 3 * max (g N) (g M) - 1) * qp.absGradient st.x st.y i) ∧
    st.info.resPrim ≤ primalTol ε g cfg qp st.x st.z ∧ st.info.resDual ≤ dualTol ε g cfg qp st.x st.y := by
  rcases solve_cases hu hrho h with ⟨_, _, _, _, s, hi, hx, hy, hz, _, _, _, h1, h2, ht⟩ | ⟨h1, _⟩
  swap
  · rw [h1] at hs; cases hs
  set t := admmUpdate ar lin cfg qp s with hts
  simp only [terminationCriteria, Bool.and_eq_true, decide_eq_true_eq] at ht
  rw [h1, h2, hx, hy, hz]
  refine ⟨resPrim_bound hu t, resDual_bound hu t, ?_, ?_⟩
  · refine ht.1.trans (tolerance_bound hu hr ha ?_ (maxAxZ_bound hu t))
    exact le_max_of_le_right (infNorm_nonneg t.z)
  · refine ht.2.trans (tolerance_bound hu hr ha ?_ (maxHxATyh_bound hu t))
    exact le_max_of_le_left (infNorm_nonneg _)

/-! ## C203: bounds and multipliers -/

/-- The argument of the projection. -/
noncomputable def projArg (ar : Arith) (cfg : Settings ℝ) (st : State ℝ N M) (zt : ℝ) (i : Fin M ⊕ Fin N) : ℝ :=
  ar.add (ar.mul cfg.alpha zt) (ar.lin2 (ar.sub 1 cfg.alpha) (st.z i) (st.rhoInvVec i) (st.y i))

theorem admmUpdate_z (st : State ℝ N M) (i : Fin M ⊕ Fin N) : (admmUpdate ar lin cfg qp st).z i =
    min (max (projArg ar cfg st ((admmUpdate ar lin cfg qp st).zTilde i) i) (qp.lower i)) (qp.upper i) := by
  rcases i with i | i <;> rfl

/-- The update of the multipliers and the distance from the argument of the projection to its result: equal up to
rounding. Everything is for one entry. -/
theorem dual_step (hu : Accurate ar ε g) {α zt zp rho ri y z v1 y' : ℝ} (hrho : 0 < rho) (hri : ri = ar.div 1 rho)
    (hv : v1 = ar.add (ar.mul α zt) (ar.lin2 (ar.sub 1 α) zp ri y))
    (hy : y' = ar.mulAdd rho (ar.sub (ar.lin2 α zt (ar.sub 1 α) zp) z) y) :
    |y' - rho * (v1 - z)| ≤
      2 * ((1 + ε) ^ 5 - 1) * (|y| + rho * (|α * zt| + |ar.sub 1 α * zp| + |z|)) ∧
    |y| ≤ |y'| + rho * (|α * zt| + |ar.sub 1 α * zp| + |z|) +
      ((1 + ε) ^ 5 - 1) * (|y| + rho * (|α * zt| + |ar.sub 1 α * zp| + |z|)) := by
  set β := ar.sub 1 α with hβ
  set V := |α * zt| + |β * zp| with hV
  have e1 : 1 ≤ 1 + ε := hu.one_le
  -- the new multiplier
  have n1 := hu.near_lin2 (Near.refl (α * zt)) (Near.refl (β * zp))
  have n2 := hu.near_sub n1 ((Near.refl z).mono (n1.1))
  have n3 := (Near.refl rho).times n2
  have n4 := hu.near_mulAdd n3 ((Near.refl y).mono n3.1)
  rw [← hy, ← hV, abs_of_pos hrho] at n4
  have p5 : (1 + ε) ^ 2 * (1 * ((1 + ε) * ((1 + ε) ^ 2 * 1))) = (1 + ε) ^ 5 := by ring
  rw [p5] at n4
  -- the argument of the projection
  have hrne : rho ≠ 0 := hrho.ne'
  have m1 := hu.near_div 1 hrne
  rw [← hri] at m1
  have m2 := m1.times (Near.refl y)
  have m3 := hu.near_lin2 ((Near.refl (β * zp)).mono m2.1) m2
  have m4 := (hu.near_mul (Near.refl α) (Near.refl zt)).mono (G' := (1 + ε) ^ 2 * ((1 + ε) * 1)) (by nlinarith [hu.eps0])
  have m5 := hu.near_add m4 m3
  rw [← hv] at m5
  have m6 := (m5.mono (G' := (1 + ε) ^ 5) (by
    have : (1 + ε) * ((1 + ε) ^ 2 * ((1 + ε) * 1)) = (1 + ε) ^ 4 := by ring
    rw [this]; exact hu.pow_mono (by norm_num)))
  have mag : |α| * |zt| + (|β * zp| + |1 / rho| * |y|) = V + |y| / rho := by
    rw [hV, abs_mul α zt, abs_of_pos (one_div_pos.mpr hrho)]; ring
  rw [mag] at m6
  have a1 := n4.2.1
  have a2 := mul_le_mul_of_nonneg_left m6.2.1 hrho.le
  have hη : 0 ≤ (1 + ε) ^ 5 - 1 := sub_nonneg.mpr (one_le_pow₀ e1)
  have hz0 := abs_nonneg z
  have hy0 := abs_nonneg y
  constructor
  · have d : y' - rho * (v1 - z) = (y' - (rho * (α * zt + β * zp - z) + y)) - rho * (v1 - (α * zt + (β * zp + 1 / rho * y))) := by
      field_simp; ring
    rw [d]
    refine (abs_sub _ _).trans ?_
    rw [abs_mul rho, abs_of_pos hrho]
    have r1 : rho * (((1 + ε) ^ 5 - 1) * (V + |y| / rho)) = ((1 + ε) ^ 5 - 1) * (rho * V + |y|) := by field_simp
    rw [r1] at a2
    have r2 : ((1 + ε) ^ 5 - 1) * (rho * V + |y|) ≤ ((1 + ε) ^ 5 - 1) * (|y| + rho * (V + |z|)) := by
      apply mul_le_mul_of_nonneg_left _ hη
      nlinarith [mul_nonneg hrho.le hz0]
    linarith
  · have d : y = y' - (y' - (rho * (α * zt + β * zp - z) + y)) - rho * (α * zt + β * zp - z) := by ring
    have s1 : |y| ≤ |y'| + |y' - (rho * (α * zt + β * zp - z) + y)| + |rho * (α * zt + β * zp - z)| := by
      conv_lhs => rw [d]
      exact (abs_sub _ _).trans (add_le_add (abs_sub _ _) le_rfl)
    have s2 : |rho * (α * zt + β * zp - z)| ≤ rho * (V + |z|) := by
      rw [abs_mul, abs_of_pos hrho]
      exact mul_le_mul_of_nonneg_left ((abs_sub _ _).trans (add_le_add (abs_add_le _ _) le_rfl)) hrho.le
    linarith

/-- Error bound of the multipliers at SOLVED, from the data members of the solver. -/
noncomputable def dualErr (ε : ℝ) (cfg : Settings ℝ) (st : State ℝ N M) (i : Fin M ⊕ Fin N) : ℝ :=
  4 * ((1 + ε) ^ 5 - 1) * (|st.y i| +
    2 * st.rhoVec i * (|cfg.alpha * st.zTilde i| + (1 + ε) * |(1 - cfg.alpha) * st.zPrev i| + |st.z i|))

/-- C203. At SOLVED the auxiliary vector is exactly within the bounds, and the multipliers have the right signs up to
rounding: larger than the error bound only at upper bounds, smaller than its negative only at lower bounds. -/
theorem solved_dual (hu : Accurate ar ε g) (hsmall : (1 + ε) ^ 5 ≤ 3 / 2) (hc : qp.Consistent) (hrho : 0 < cfg.rho)
    {st : State ℝ N M} (h : solve ar both lin cfg qp xg yg old = some st) (hs : st.info.status = .SOLVED) :
    QP.InNormalConeUpTo (dualErr ε cfg st) qp.lower qp.upper st.z st.y := by
  rcases solve_cases hu hrho h with ⟨_, _, _, _, s, hi, hx, hy, hz, hzp, hzt, hrv, _⟩ | ⟨h1, _⟩
  swap
  · rw [h1] at hs; cases hs
  intro i
  have hzi : st.z i = min (max (projArg ar cfg s (st.zTilde i) i) (qp.lower i)) (qp.upper i) := by
    rw [hz, hzt]; exact admmUpdate_z s i
  have hyi : st.y i = ar.mulAdd (s.rhoVec i)
      (ar.sub (ar.lin2 cfg.alpha (st.zTilde i) (ar.sub 1 cfg.alpha) (s.z i)) (st.z i)) (s.y i) := by
    rw [hy, hz, hzt]; rfl
  have hb : qp.lower i ≤ st.z i ∧ st.z i ≤ qp.upper i := by rw [hzi]; exact clip_mem (hc i)
  obtain ⟨d1, d2⟩ := dual_step hu (hi.rv i) (hi.ri i) (rfl : projArg ar cfg s (st.zTilde i) i = _) hyi
  -- the bound in terms of the final state
  have hβ : |ar.sub 1 cfg.alpha * s.z i| ≤ (1 + ε) * |(1 - cfg.alpha) * s.z i| := by
    rw [abs_mul, abs_mul, ← mul_assoc]
    refine mul_le_mul_of_nonneg_right ?_ (abs_nonneg _)
    have := hu.sub 1 cfg.alpha
    have h1 := abs_sub_abs_le_abs_sub (ar.sub 1 cfg.alpha) (1 - cfg.alpha)
    linarith
  have hρ := hi.rv i
  set η := (1 + ε) ^ 5 - 1 with hη
  have hη0 : 0 ≤ η := sub_nonneg.mpr (one_le_pow₀ hu.one_le)
  have hη1 : η ≤ 1 / 2 := by linarith
  set W := |cfg.alpha * st.zTilde i| + |ar.sub 1 cfg.alpha * s.z i| + |st.z i| with hW
  set W' := |cfg.alpha * st.zTilde i| + (1 + ε) * |(1 - cfg.alpha) * s.z i| + |st.z i| with hW'
  have hWW : W ≤ W' := by linarith
  have hρW := mul_le_mul_of_nonneg_left hWW hρ.le
  have hδ : 2 * η * (|s.y i| + s.rhoVec i * W) ≤ dualErr ε cfg st i := by
    have q1 : |s.y i| + s.rhoVec i * W ≤ 2 * (|st.y i| + 2 * (s.rhoVec i * W')) := by
      have hn : 0 ≤ |s.y i| + s.rhoVec i * W := by positivity
      nlinarith
    have := mul_le_mul_of_nonneg_left q1 (mul_nonneg (by norm_num : (0 : ℝ) ≤ 2) hη0)
    unfold dualErr
    rw [hrv, hzp, ← hη, ← hW']
    linarith
  have d3 := abs_le.mp (d1.trans hδ)
  refine ⟨hb, fun hy1 => ?_, fun hy1 => ?_⟩
  · have : 0 < s.rhoVec i * (projArg ar cfg s (st.zTilde i) i - st.z i) := by linarith [d3.2]
    have := (mul_pos_iff_of_pos_left hρ).mp this
    rw [hzi] at this ⊢
    exact clip_of_lt (by linarith)
  · have : s.rhoVec i * (projArg ar cfg s (st.zTilde i) i - st.z i) < 0 := by linarith [d3.1]
    have := (pos_iff_neg_of_mul_neg this).mp hρ
    rw [hzi] at this ⊢
    exact clip_of_gt (hc i) (by linarith)

/-- C203. Violation of the constraints at SOLVED. -/
theorem solved_violation (hu : Accurate ar ε g) (hc : qp.Consistent) (hrho : 0 < cfg.rho)
    (ha : 0 ≤ cfg.epsAbs) (hr : 0 ≤ cfg.epsRel) {st : State ℝ N M}
    (h : solve ar both lin cfg qp xg yg old = some st) (hs : st.info.status = .SOLVED) (i : Fin M ⊕ Fin N) :
    qp.lower i - (primalTol ε g cfg qp st.x st.z + ((1 + ε) * g N - 1) * (qp.absRows st.x i + |st.z i|)) ≤ qp.rows st.x i ∧
    qp.rows st.x i ≤ qp.upper i + (primalTol ε g cfg qp st.x st.z + ((1 + ε) * g N - 1) * (qp.absRows st.x i + |st.z i|)) := by
  obtain ⟨h1, _, h3, _⟩ := solved_residuals hu hrho ha hr h hs
  rcases solve_cases hu hrho h with ⟨_, _, _, _, s, hi, hx, hy, hz, _⟩ | ⟨h0, _⟩
  swap
  · rw [h0] at hs; cases hs
  have hb : qp.lower i ≤ st.z i ∧ st.z i ≤ qp.upper i := by rw [hz, admmUpdate_z]; exact clip_mem (hc i)
  have := abs_le.mp (h1 i)
  constructor <;> linarith [this.1, this.2, hb.1, hb.2]

/-! ## C204: optimality -/

theorem normalConeUpTo_le {ι : Type*} [Fintype ι] {δ lb ub z y w : ι → ℝ} (h : QP.InNormalConeUpTo δ lb ub z y)
    (hw : ∀ i, lb i ≤ w i ∧ w i ≤ ub i) : y ⬝ᵥ (w - z) ≤ ∑ i, δ i * |w i - z i| := by
  unfold dotProduct
  refine Finset.sum_le_sum fun i _ => ?_
  obtain ⟨_, h1, h2⟩ := h i
  rw [Pi.sub_apply]
  by_cases p1 : δ i < y i
  · have e := h1 p1
    have : w i - z i ≤ 0 := by rw [e]; linarith [(hw i).2]
    rw [abs_of_nonpos this]
    by_cases hd : 0 ≤ δ i
    · nlinarith
    · by_cases p2 : y i < -δ i
      · have e2 := h2 p2
        have : w i - z i = 0 := le_antisymm this (by rw [e2]; linarith [(hw i).1])
        rw [this]; simp
      · nlinarith
  · by_cases p2 : y i < -δ i
    · have e := h2 p2
      have : 0 ≤ w i - z i := by rw [e]; linarith [(hw i).1]
      rw [abs_of_nonneg this]
      nlinarith
    · have ha : |y i| ≤ δ i := abs_le.mpr ⟨by linarith, by linarith⟩
      calc y i * (w i - z i) ≤ |y i * (w i - z i)| := le_abs_self _
        _ = |y i| * |w i - z i| := abs_mul _ _
        _ ≤ δ i * |w i - z i| := mul_le_mul_of_nonneg_right ha (abs_nonneg _)

/-- Approximate optimality from componentwise bounds. -/
theorem near_optimal (hconv : qp.Convex) {x w : Fin N → ℝ} {y z δ P : Fin M ⊕ Fin N → ℝ} {E : Fin N → ℝ}
    (hy : QP.InNormalConeUpTo δ qp.lower qp.upper z y) (hw : qp.Feasible w)
    (hE : ∀ i, |qp.lagrangianGradient x y i| ≤ E i) (hP : ∀ i, |qp.rows x i - z i| ≤ P i) :
    qp.objective x ≤ qp.objective w + ∑ i, E i * |x i - w i| + ∑ i, P i * |y i| + ∑ i, δ i * |qp.rows w i - z i| := by
  have h1 := qp.objective_ge hconv x w
  have h2 := normalConeUpTo_le hy ((qp.feasible_iff w).mp hw)
  have h3 : qp.lagrangianGradient x y ⬝ᵥ (x - w) ≤ ∑ i, E i * |x i - w i| := by
    refine Finset.sum_le_sum fun i _ => (le_abs_self _).trans ?_
    rw [abs_mul]
    exact mul_le_mul_of_nonneg_right (hE i) (abs_nonneg _)
  have h4 : -(∑ i, P i * |y i|) ≤ (qp.rows x - z) ⬝ᵥ y := by
    rw [neg_le, ← neg_dotProduct]
    refine Finset.sum_le_sum fun i _ => (le_abs_self _).trans ?_
    rw [abs_mul, Pi.neg_apply, abs_neg]
    exact mul_le_mul_of_nonneg_right (hP i) (abs_nonneg _)
  rw [QP.lagrangianGradient_eq, add_dotProduct, QP.adjoint_dot, QP.rows_sub] at h3
  rw [dotProduct_comm] at h4
  simp only [dotProduct_sub] at h1 h2 h3 h4
  linarith

/-- C204. For a convex QP, when `solve` reports SOLVED, the objective at the returned point exceeds the objective at any
feasible point by at most the tolerances times the distances plus the rounding errors. The linear solver does not matter. -/
theorem solved_near_optimal (hu : Accurate ar ε g) (hsmall : (1 + ε) ^ 5 ≤ 3 / 2) (hconv : qp.Convex) (hc : qp.Consistent)
    (hrho : 0 < cfg.rho) (ha : 0 ≤ cfg.epsAbs) (hr : 0 ≤ cfg.epsRel) {st : State ℝ N M}
    (h : solve ar both lin cfg qp xg yg old = some st) (hs : st.info.status = .SOLVED)
    (w : Fin N → ℝ) (hw : qp.Feasible w) :
    qp.objective st.x ≤ qp.objective w
      + dualTol ε g cfg qp st.x st.y * oneNorm (st.x - w)
      + primalTol ε g cfg qp st.x st.z * oneNorm st.y
      + (((1 + ε) ^ 3 * max (g N) (g M) - 1) * ∑ i, qp.absGradient st.x st.y i * |st.x i - w i|
        + ((1 + ε) * g N - 1) * ∑ i, (qp.absRows st.x i + |st.z i|) * |st.y i|
        + ∑ i, dualErr ε cfg st i * |qp.rows w i - st.z i|) := by
  obtain ⟨h1, h2, h3, h4⟩ := solved_residuals hu hrho ha hr h hs
  have := near_optimal hconv (solved_dual hu hsmall hc hrho h hs) hw h2 h1
  simp only [add_mul, Finset.sum_add_distrib, ← Finset.mul_sum, mul_assoc] at this
  have a1 := mul_le_mul_of_nonneg_right h4 (oneNorm_nonneg (st.x - w))
  have a2 := mul_le_mul_of_nonneg_right h3 (oneNorm_nonneg st.y)
  unfold oneNorm at a1 a2 ⊢
  simp only [Pi.sub_apply, add_mul, Finset.sum_add_distrib] at a1 a2 ⊢
  linarith

/-! ## Examples -/

/-- Double precision (without its limits on exponents) satisfies the assumptions. -/
example (sq : ℝ → ℝ) : Accurate (Arith.plain (roundBits 52) sq) (1 / 2 ^ 53) (fun n => (1 + 1 / 2 ^ 53) ^ (n + 1)) ∧
    (1 + 1 / 2 ^ 53 : ℝ) ^ 5 ≤ 3 / 2 :=
  ⟨(accurate_roundBits 52 sq).1, by norm_num⟩

/-- Minimise `½ x² - 2 x` for `0 ≤ x ≤ 1`; the upper bound is active. -/
def exQP : QP ℝ 1 0 where
  H := fun _ _ => 1
  h := fun _ => -2
  A := fun i _ => i.elim0
  Alb := fun i => i.elim0
  Aub := fun i => i.elim0
  xlb := fun _ => 0
  xub := fun _ => 1

noncomputable def exCfg : Settings ℝ :=
  { epsRel := 0, epsAbs := 1, maxIter := 1, rho := 1, sigma := 1, alpha := 1, checkTermination := 1,
    adaptiveRho := false, adaptiveRhoTolerance := 5, adaptiveRhoInterval := 3 }

theorem exRound (p : ℕ) : roundBits p 0 = 0 ∧ roundBits p 1 = 1 ∧ roundBits p 2 = 2 ∧ roundBits p (-1) = -1 := by
  have h1 : roundBits p 1 = 1 := roundBits_exact p (2 ^ p) (by simp)
  have hl : Int.log 2 (2 : ℝ) = 1 := by
    have := Int.log_zpow (R := ℝ) (b := 2) (by norm_num) 1
    simpa using this
  refine ⟨by simp [roundBits], h1, roundBits_exact p (2 ^ p) ?_, roundBits_exact p (-2 ^ p) (by simp)⟩
  rw [abs_of_pos (by norm_num : (0 : ℝ) < 2), hl]
  push_cast
  rw [← zpow_natCast, ← zpow_add₀ (by norm_num)]
  norm_num

/-- The hypotheses of C202-C204 are met by a run with rounding: it ends with SOLVED at the solution `x = 1`, with the
multiplier `1` of the active upper bound. -/
example (sq : ℝ → ℝ) (old : State ℝ 1 0) : ∃ st, solve (Arith.plain (roundBits 52) sq) true (fun _ _ _ => 1) exCfg exQP (fun _ => 1) (fun _ => 1) old = some st ∧
    st.info.status = .SOLVED ∧ st.x = (fun _ => 1) ∧ st.y = fun _ => 1 := by
  obtain ⟨f0, f1, f2, f3⟩ := exRound 52
  have he : ¬ (1 : ℝ) < roundBits 52 eqTol := by
    have := (abs_le.mp (roundBits_error 52 eqTol)).2
    rw [abs_of_pos (by unfold eqTol; norm_num)] at this
    have h2 : (eqTol : ℝ) = 1 / 10000 := rfl
    rw [h2] at this ⊢
    norm_num at this ⊢
    linarith
  have hS : ∃ s, setup (Arith.plain (roundBits 52) sq) true exCfg exQP (fun _ => 1) (fun _ => 1) old = s ∧
      s.x = (fun _ => 1) ∧ s.y = (fun _ => 1) ∧ s.z = (fun _ => 1) ∧ s.rhoVec = (fun _ => 1) ∧ s.rhoInvVec = fun _ => 1 := by
    refine ⟨_, rfl, rfl, rfl, ?_, ?_, ?_⟩
    · funext i
      rcases i with i | i
      · exact i.elim0
      · simp [setup, rhoVecUpdate, factorise, constructA, Arith.plain, Fin.foldl_succ, f1, Subsingleton.elim i 0]
    · funext i
      rcases i with i | i
      · exact i.elim0
      · simp [setup, rhoVecUpdate, factorise, rhoEntry, classify, Arith.plain, f1, he, exCfg, exQP, looseBoundsThresh]
    · funext i
      rcases i with i | i
      · exact i.elim0
      · simp [setup, rhoVecUpdate, factorise, rhoEntry, classify, Arith.plain, f1, he, exCfg, exQP, looseBoundsThresh]
  obtain ⟨s, hs, hx, hy, hz, hr, hri⟩ := hS
  set P := Arith.plain (roundBits 52) sq with hP
  have hT : (admmUpdate P (fun _ _ _ => 1) exCfg exQP s).x = (fun _ => 1) ∧
      (admmUpdate P (fun _ _ _ => 1) exCfg exQP s).z = (fun _ => 1) ∧
      (admmUpdate P (fun _ _ _ => 1) exCfg exQP s).y = fun _ => 1 := by
    have hzt : ∀ i, (admmUpdate P (fun _ _ _ => 1) exCfg exQP s).zTilde i = 1 := by
      intro i
      simp [admmUpdate, hP, Arith.plain, hy, hz, hri, f0, f1]
    have hz' : (admmUpdate P (fun _ _ _ => 1) exCfg exQP s).z = fun _ => 1 := by
      funext i
      rw [admmUpdate_z, hzt]
      rcases i with i | i
      · exact i.elim0
      · norm_num [projArg, hP, Arith.plain, hy, hz, hri, f0, f1, f2, exCfg, QP.lower, QP.upper, exQP]
    refine ⟨?_, hz', ?_⟩
    · funext i
      simp [admmUpdate, hP, Arith.plain, hx, f0, f1, exCfg]
    · funext i
      have : (admmUpdate P (fun _ _ _ => 1) exCfg exQP s).y i = P.mulAdd (s.rhoVec i)
          (P.sub (P.lin2 exCfg.alpha ((admmUpdate P (fun _ _ _ => 1) exCfg exQP s).zTilde i) (P.sub 1 exCfg.alpha) (s.z i))
            ((admmUpdate P (fun _ _ _ => 1) exCfg exQP s).z i)) (s.y i) := rfl
      rw [this, hzt, hz']
      simp [hP, Arith.plain, hy, hz, hr, f0, f1, exCfg]
  obtain ⟨tx, tz, ty⟩ := hT
  set t := admmUpdate P (fun _ _ _ => 1) exCfg exQP s with ht
  have hterm : terminationCriteria P exCfg (residualsUpdate P exQP t) = true := by
    have e1 : (residualsUpdate P exQP t).info.resPrim = 0 := by
      simp [residualsUpdate, primalResidual, infNorm, tailN, tx, tz, hP, Arith.plain, f0]
    have e2 : (residualsUpdate P exQP t).info.resDual = 0 := by
      norm_num [residualsUpdate, dualResidual, infNorm, tailN, headM, tx, ty, hP, Arith.plain, f0, f1, f3, exQP, Fin.foldl_succ]
    have hm : ∀ a, P.mulAdd 0 a 1 = 1 := fun a => by simp [hP, Arith.plain, f0, f1]
    have e3 : ∀ a, P.mulAdd exCfg.epsRel a exCfg.epsAbs = 1 := hm
    simp [terminationCriteria, e1, e2, epsPrim, epsDual, e3]
  have hb : body P (fun _ _ _ => 1) exCfg exQP 1 s = .brk { residualsUpdate P exQP t with
      info := { (residualsUpdate P exQP t).info with status := .SOLVED } } := by
    have hc : checkNow exCfg 1 = true := by simp [checkNow, exCfg]
    simp only [body, hc, ← ht, hterm, if_true, Bool.and_self]
  have hl : loop P (fun _ _ _ => 1) exCfg exQP exCfg.maxIter.toNat 1 s = some (1, { residualsUpdate P exQP t with
      info := { (residualsUpdate P exQP t).info with status := .SOLVED } }) := by
    have hm : exCfg.maxIter.toNat = 1 := rfl
    rw [hm]
    simp only [loop, hb]
  have hn : ¬ (1 : ℤ) > exCfg.maxIter := by simp [exCfg]
  refine ⟨{ residualsUpdate P exQP t with
      info := { (residualsUpdate P exQP t).info with status := .SOLVED, iter := 1 } }, ?_, rfl, tx, ty⟩
  unfold solve
  rw [hs, hl]
  simp only [if_neg hn]

end PolyMPC.AdmmR
