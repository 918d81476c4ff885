import Verif.Props.AdmmAdaptive

/-!
# Property C190: an explicit iteration limit that suffices

For a convex QP and a constant step size the number of passes ADMM needs until the test accepts is bounded by the settings, the data
and the distance of the initial guess from a KKT point.
-/

set_option linter.unusedSectionVars false

namespace PolyMPC.Admm
open Matrix PolyMPC.Spec PolyMPC.QPBase

/-- The step size of row `i` of `(A x, x)`, depending on the kind of its bounds (C08). -/
noncomputable def stepSize {N M : ℕ} (qp : QP ℝ N M) (rho : ℝ) (i : Fin M ⊕ Fin N) : ℝ :=
  if qp.lower i < -(10 ^ 10) ∧ 10 ^ 10 < qp.upper i then 1 / 10 ^ 6
  else if qp.upper i - qp.lower i < 1 / 10 ^ 4 then 1000 * rho else rho

/-- Weighted squared distance of the initial guess `(x, y)` from `(xs, ys)`, plus a term that vanishes if `y` is a multiplier for
`x` (for instance zero at a feasible point). -/
noncomputable def guessError {N M : ℕ} (qp : QP ℝ N M) (cfg : Settings ℝ) (x xs : Fin N → ℝ) (y ys : Fin M ⊕ Fin N → ℝ) : ℝ :=
  cfg.sigma * ∑ i, (x i - xs i) ^ 2 +
    ∑ j, (stepSize qp cfg.rho j * (qp.rows x j - qp.rows xs j) + (y j - ys j)) ^ 2 / stepSize qp cfg.rho j +
    2 * cfg.alpha * max 0 (-∑ j, (y j - ys j) * (qp.rows x j - qp.rows xs j))

/-- Entry of the matrix of all constraints `(A x, x)`. -/
def rowEntry {N M : ℕ} (qp : QP ℝ N M) : Fin M ⊕ Fin N → Fin N → ℝ
  | Sum.inl j, i => qp.A j i
  | Sum.inr j, i => if j = i then 1 else 0

variable {N M : ℕ}
variable {both : Bool} {lin : KktMat ℝ N M → (KktIdx N M → ℝ) → (KktIdx N M → ℝ)} {sq : ℝ → ℝ} {cfg : Settings ℝ}
  {qp : QP ℝ N M} {xg : Fin N → ℝ} {yg : Fin M ⊕ Fin N → ℝ} {old : State ℝ N M}

theorem stepSize_eq (cfg : Settings ℝ) (i : Fin M ⊕ Fin N) : (setup both cfg qp xg yg old).rhoVec i = stepSize qp cfg.rho i := by
  have key : ∀ lb ub : ℝ, rhoEntry (classify lb ub) cfg.rho =
      if lb < -(10 ^ 10) ∧ 10 ^ 10 < ub then 1 / 10 ^ 6 else if ub - lb < 1 / 10 ^ 4 then 1000 * cfg.rho else cfg.rho := by
    intro lb ub
    unfold classify looseBoundsThresh eqTol
    have e1 : (10000000000 : ℝ) = 10 ^ 10 := by norm_num
    have e2 : (1 / 10000 : ℝ) = 1 / 10 ^ 4 := by norm_num
    rw [e1, e2]
    by_cases h1 : lb < -(10 ^ 10) ∧ ub > 10 ^ 10
    · rw [if_pos h1, if_pos h1]; simp only [rhoEntry, rhoMin]; norm_num
    · rw [if_neg h1, if_neg h1]
      by_cases h2 : ub - lb < 1 / 10 ^ 4
      · rw [if_pos h2, if_pos h2]; rfl
      · rw [if_neg h2, if_neg h2]; rfl
  rcases i with i | i
  · exact key (qp.Alb i) (qp.Aub i)
  · exact key (qp.xlb i) (qp.xub i)

theorem constructA_entry (j : Fin M ⊕ Fin N) (i : Fin N) : constructA qp.A j i = rowEntry qp j i := by
  rcases j with j | j
  · rfl
  · show (1 : Matrix (Fin N) (Fin N) ℝ) j i = _
    rw [Matrix.one_apply]; rfl

theorem abs_mulVec_le {p q : Type*} [Fintype q] (B : Matrix p q ℝ) {v : q → ℝ} {d : ℝ} (hv : ∀ i, |v i| ≤ d) (i : p) :
    |(B *ᵥ v) i| ≤ d * ∑ j, |B i j| := by
  rw [Matrix.mulVec, dotProduct, Finset.mul_sum]
  refine (Finset.abs_sum_le_sum_abs _ _).trans (Finset.sum_le_sum fun j _ => ?_)
  rw [abs_mul, mul_comm]
  exact mul_le_mul_of_nonneg_right (hv j) (abs_nonneg _)

/-- A small step means small residuals. -/
theorem small_step {H : Matrix (Fin N) (Fin N) ℝ} {h : Fin N → ℝ} {A : Matrix (Fin M ⊕ Fin N) (Fin N) ℝ} {sigma alpha mu d : ℝ} {rho : Fin M ⊕ Fin N → ℝ}
    {x xt x' : Fin N → ℝ} {z y z' y' : Fin M ⊕ Fin N → ℝ} (st : AdmmMath.Step H h A sigma alpha rho x z y xt x' z' y')
    (hmu : 0 < mu) (hs : mu ≤ sigma) (hr : ∀ j, mu ≤ rho j) (hd : 0 ≤ d)
    (hsmall : AdmmMath.stepSq A sigma rho x z xt ≤ mu * d ^ 2) :
    (∀ j, |(A *ᵥ x) j - z j| ≤ d * (1 + ∑ i, |A j i|)) ∧
    (∀ i, |(H *ᵥ x) i + h i + (Aᵀ *ᵥ y) i| ≤ d * (sigma + ∑ l, |H i l| + ∑ j, rho j * |A j i|)) := by
  have nn1 : 0 ≤ sigma * ∑ i, (xt i - x i) * (xt i - x i) := mul_nonneg (by linarith) (Finset.sum_nonneg fun i _ => mul_self_nonneg _)
  have nn2 : 0 ≤ ∑ j, rho j * (((A *ᵥ xt) j - z j) * ((A *ᵥ xt) j - z j)) :=
    Finset.sum_nonneg fun j _ => mul_nonneg (by linarith [hr j]) (mul_self_nonneg _)
  unfold AdmmMath.stepSq at hsmall
  have w : ∀ i, |xt i - x i| ≤ d := by
    intro i
    have h1 : sigma * ((xt i - x i) * (xt i - x i)) ≤ sigma * ∑ i, (xt i - x i) * (xt i - x i) :=
      mul_le_mul_of_nonneg_left (Finset.single_le_sum (f := fun i => (xt i - x i) * (xt i - x i)) (fun i _ => mul_self_nonneg _) (Finset.mem_univ i)) (by linarith)
    have h2 : mu * ((xt i - x i) * (xt i - x i)) ≤ sigma * ((xt i - x i) * (xt i - x i)) := mul_le_mul_of_nonneg_right hs (mul_self_nonneg _)
    have h3 : (xt i - x i) ^ 2 ≤ d ^ 2 := by
      refine le_of_mul_le_mul_left ?_ hmu
      rw [sq]; linarith
    exact abs_le_of_sq_le_sq h3 hd
  have v : ∀ j, |(A *ᵥ xt) j - z j| ≤ d := by
    intro j
    have h1 : rho j * (((A *ᵥ xt) j - z j) * ((A *ᵥ xt) j - z j)) ≤ ∑ j, rho j * (((A *ᵥ xt) j - z j) * ((A *ᵥ xt) j - z j)) :=
      Finset.single_le_sum (f := fun j => rho j * (((A *ᵥ xt) j - z j) * ((A *ᵥ xt) j - z j))) (fun j _ => mul_nonneg (by linarith [hr j]) (mul_self_nonneg _)) (Finset.mem_univ j)
    have h2 : mu * (((A *ᵥ xt) j - z j) * ((A *ᵥ xt) j - z j)) ≤ rho j * (((A *ᵥ xt) j - z j) * ((A *ᵥ xt) j - z j)) := mul_le_mul_of_nonneg_right (hr j) (mul_self_nonneg _)
    have h3 : ((A *ᵥ xt) j - z j) ^ 2 ≤ d ^ 2 := by
      refine le_of_mul_le_mul_left ?_ hmu
      rw [sq]; linarith
    exact abs_le_of_sq_le_sq h3 hd
  obtain ⟨e1, e2⟩ := AdmmMath.step_residuals st
  constructor
  · intro j
    rw [e1]
    have h1 := abs_mulVec_le A (v := xt - x) w j
    calc _ ≤ |(A *ᵥ xt) j - z j| + |(A *ᵥ (xt - x)) j| := abs_sub _ _
      _ ≤ d + d * ∑ i, |A j i| := add_le_add (v j) h1
      _ = _ := by ring
  · intro i
    rw [e2]
    have h1 := abs_mulVec_le H (v := xt - x) w i
    have h2 : |(Aᵀ *ᵥ fun j => rho j * ((A *ᵥ xt) j - z j)) i| ≤ d * ∑ j, rho j * |A j i| := by
      rw [Matrix.mulVec, dotProduct, Finset.mul_sum]
      refine (Finset.abs_sum_le_sum_abs _ _).trans (Finset.sum_le_sum fun j _ => ?_)
      rw [Matrix.transpose_apply, abs_mul, abs_mul, abs_of_pos (lt_of_lt_of_le hmu (hr j))]
      have := mul_le_mul_of_nonneg_right (v j) (mul_nonneg (hmu.le.trans (hr j)) (abs_nonneg (A j i)))
      linarith
    have h3 : |-(sigma * (xt i - x i))| ≤ d * sigma := by
      rw [abs_neg, abs_mul, abs_of_pos (lt_of_lt_of_le hmu hs), mul_comm]
      exact mul_le_mul_of_nonneg_right (w i) (by linarith)
    have a := abs_le.mp h1
    have b := abs_le.mp h2
    have c := abs_le.mp h3
    rw [abs_le]; constructor <;> linarith

/-- The Lyapunov function after the first pass is at most the error of the guess. -/
theorem lyap_first (hex : ExactSolver both lin) (hconv : qp.Convex) (hsig : 0 < cfg.sigma) (hrho : 0 < cfg.rho) (ha : 0 < cfg.alpha)
    (ha2 : cfg.alpha < 2) {xs : Fin N → ℝ} {ys : Fin M ⊕ Fin N → ℝ} (hk : qp.KKT xs ys) :
    AdmmMath.lyap cfg.sigma (setup both cfg qp xg yg old).rhoVec (iterate both lin cfg qp xg yg old 1).x (iterate both lin cfg qp xg yg old 1).z
      (iterate both lin cfg qp xg yg old 1).y xs (constructA qp.A *ᵥ xs) ys ≤ guessError qp cfg xg xs yg ys := by
  have hp := setup_rhoVec_pos (both := both) (qp := qp) (xg := xg) (yg := yg) (old := old) hrho
  have hst := step_admmUpdate (st := setup both cfg qp xg yg old) hex hconv hsig ⟨old.kkt, rfl⟩ hp (fun _ => rfl)
  have := AdmmMath.lyap_step hp hst (kkt_stat hk)
  have e0 : admmUpdate lin cfg qp (setup both cfg qp xg yg old) = iterate both lin cfg qp xg yg old 1 := rfl
  rw [e0] at this
  rw [this]
  have n1 := mul_nonneg ha.le (hconv.2 ((iterate both lin cfg qp xg yg old 1).xTilde - xs))
  have n2 := mul_nonneg (mul_nonneg ha.le (by linarith : 0 ≤ 2 - cfg.alpha)) (AdmmMath.stepSq_nonneg (constructA qp.A) hsig.le hp (setup both cfg qp xg yg old).x
    (setup both cfg qp xg yg old).z (iterate both lin cfg qp xg yg old 1).xTilde)
  have hrow : ∀ v : Fin N → ℝ, constructA qp.A *ᵥ v = qp.rows v := fun v => (QP.rows_eq qp v).symm
  have ex : (setup both cfg qp xg yg old).x = xg := rfl
  have ey : (setup both cfg qp xg yg old).y = yg := rfl
  have ez : (setup both cfg qp xg yg old).z = constructA qp.A *ᵥ xg := rfl
  have e1 : AdmmMath.lyap cfg.sigma (setup both cfg qp xg yg old).rhoVec (setup both cfg qp xg yg old).x (setup both cfg qp xg yg old).z
      (setup both cfg qp xg yg old).y xs (constructA qp.A *ᵥ xs) ys = cfg.sigma * ∑ i, (xg i - xs i) ^ 2 +
    ∑ j, (stepSize qp cfg.rho j * (qp.rows xg j - qp.rows xs j) + (yg j - ys j)) ^ 2 / stepSize qp cfg.rho j := by
    rw [ex, ey, ez, hrow, hrow]
    unfold AdmmMath.lyap
    congr 1
    · congr 1
      exact Finset.sum_congr rfl fun i _ => by ring
    · refine Finset.sum_congr rfl fun j _ => ?_
      rw [stepSize_eq, div_eq_inv_mul]
      congr 1; ring
  have e2 : ∑ j, ((setup both cfg qp xg yg old).y j - ys j) * ((setup both cfg qp xg yg old).z j - (constructA qp.A *ᵥ xs) j) =
      ∑ j, (yg j - ys j) * (qp.rows xg j - qp.rows xs j) := by rw [ey, ez, hrow, hrow]
  rw [e1, e2]
  unfold guessError
  have n3 := mul_le_mul_of_nonneg_left (le_max_right 0 (-∑ j, (yg j - ys j) * (qp.rows xg j - qp.rows xs j))) (by linarith : 0 ≤ 2 * cfg.alpha)
  linarith

/-- Among the passes `c, 2 c, …, L c` one has a small step if `L` is large. -/
theorem exists_small {V e : ℕ → ℝ} (hV : ∀ k, 0 ≤ V k) (he : ∀ k, 0 ≤ e k) (h : ∀ k, V (k + 1) + e k ≤ V k) {c L : ℕ} (hc : 1 ≤ c) {t : ℝ}
    (hL1 : 1 ≤ L) (hL : V 0 ≤ L * t) : ∃ i, 1 ≤ i ∧ i ≤ L ∧ e (c * i - 1) ≤ t := by
  by_contra hcon
  push Not at hcon
  have mono : ∀ k d, V (k + d) ≤ V k := by
    intro k d
    induction d with
    | zero => exact le_rfl
    | succ d ih => have := h (k + d); have := he (k + d); show V (k + d + 1) ≤ _; linarith
  have key : ∀ i ≤ L, V (c * i) + i * t ≤ V 0 ∧ (1 ≤ i → V (c * i) + i * t < V 0) := by
    intro i
    induction i with
    | zero => intro _; exact ⟨by simp, by omega⟩
    | succ i ih =>
      intro hi
      have h1 := (ih (by omega)).1
      have h2 := hcon (i + 1) (by omega) hi
      have e1 : c * (i + 1) - 1 = c * i + (c - 1) := by rw [Nat.mul_succ]; omega
      have e2 : c * (i + 1) = c * i + (c - 1) + 1 := by rw [Nat.mul_succ]; omega
      have h3 := h (c * i + (c - 1))
      have h4 := mono (c * i) (c - 1)
      rw [e1] at h2
      rw [← e2] at h3
      have : V (c * (i + 1)) + ((i + 1 : ℕ) : ℝ) * t < V 0 := by push_cast; linarith
      exact ⟨this.le, fun _ => this⟩
  have := (key L le_rfl).2 hL1
  have := hV (c * L)
  linarith

/-- If the iterate after pass `k`, a multiple of `check_termination`, has small residuals then the loop stops at pass `k` or before. -/
theorem stops_by (hadapt : cfg.adaptiveRho = false) (hcheck : 0 < cfg.checkTermination) (hrel : 0 ≤ cfg.epsRel) {k : ℕ} (hk : 1 ≤ k)
    (hdvd : cfg.checkTermination ∣ (k : ℤ))
    (r1 : infNorm (qp.rows (iterate both lin cfg qp xg yg old k).x - (iterate both lin cfg qp xg yg old k).z) ≤ cfg.epsAbs)
    (r2 : infNorm (qp.lagrangianGradient (iterate both lin cfg qp xg yg old k).x (iterate both lin cfg qp xg yg old k).y) ≤ cfg.epsAbs) :
    ∃ j s s', j + 1 ≤ k ∧ Running both lin sq cfg qp xg yg old j s ∧ body lin sq cfg qp (j + 1 : ℕ) s = .brk s' := by
  by_contra hcon
  push Not at hcon
  have hrun : ∀ j ≤ k, ∃ s, Running both lin sq cfg qp xg yg old j s := by
    intro j
    induction j with
    | zero => intro _; exact ⟨_, Running.init⟩
    | succ j ih =>
      intro hj
      obtain ⟨s, hs⟩ := ih (by omega)
      cases hb : body lin sq cfg qp (j + 1 : ℕ) s with
      | ub =>
        rcases body_cases (lin := lin) (sq := sq) (cfg := cfg) (qp := qp) (j + 1 : ℕ) s with
          ⟨s1, hb', _⟩ | ⟨_, h1, h2⟩ | ⟨s2, _, _, hb' | ⟨_, _, _, _, hb'⟩⟩
        · rw [hb] at hb'; cases hb'
        · rw [hadapt] at h1; cases h1
        · rw [hb] at hb'; cases hb'
        · rw [hb] at hb'; cases hb'
      | brk s' => exact absurd hb (hcon j s s' hj hs)
      | cont s' => exact ⟨s', Running.cont hs hb⟩
  obtain ⟨p, rfl⟩ : ∃ p, k = p + 1 := ⟨k - 1, by omega⟩
  obtain ⟨t, ht⟩ := hrun (p + 1) le_rfl
  obtain ⟨e1, e2, e3, _⟩ := running_iterate hadapt ht
  rw [← e1, ← e3] at r1
  rw [← e1, ← e2] at r2
  have hchk : checkNow cfg ((p + 1 : ℕ) : ℤ) = true := by
    unfold checkNow
    rw [decide_eq_true (by omega : cfg.checkTermination ≠ 0), Bool.true_and, decide_eq_true_eq, ← Int.dvd_iff_tmod_eq_zero]
    exact hdvd
  cases ht with
  | @cont _ u _ h1 bb =>
    obtain ⟨f1, f2, f3, _⟩ := body_sameIter (Or.inl bb)
    rw [f1, f3] at r1
    rw [f1, f2] at r2
    rcases body_cases (lin := lin) (sq := sq) (cfg := cfg) (qp := qp) (p + 1 : ℕ) u with
      ⟨s1, hb', _⟩ | ⟨hb', _⟩ | ⟨s2, _, ht, _⟩
    · rw [bb] at hb'; cases hb'
    · rw [bb] at hb'; cases hb'
    · obtain ⟨hs2, hf⟩ := ht hchk
      rw [hs2] at hf
      have : terminationCriteria cfg (residualsUpdate qp (admmUpdate lin cfg qp u)) = true := by
        rw [terminationCriteria_iff]
        refine ⟨r1.trans ?_, r2.trans ?_⟩
        · have h0 : 0 ≤ primalScale qp (admmUpdate lin cfg qp u).x (admmUpdate lin cfg qp u).z := le_trans (infNorm_nonneg _) (le_max_left _ _)
          have := mul_nonneg hrel h0
          linarith
        · have h0 : 0 ≤ dualScale qp (admmUpdate lin cfg qp u).x (admmUpdate lin cfg qp u).y := le_trans (infNorm_nonneg _) (le_max_left _ _)
          have := mul_nonneg hrel h0
          linarith
      rw [this] at hf
      cases hf

/-- C190. Let `(xs, ys)` be a KKT point of a convex QP, `mu` a lower bound of `sigma` and of all step sizes, and `d > 0` so small that `d`
times the norms of the data is at most the absolute tolerance. Then the number of tests needed is at most the error of the
guess divided by `alpha (2 - alpha) mu d²`: with an iteration limit of at least `check_termination` times this number SOLVED is returned. -/
theorem iteration_bound (hex : ExactSolver both lin) (hconv : qp.Convex) {xs : Fin N → ℝ} {ys : Fin M ⊕ Fin N → ℝ} (hk : qp.KKT xs ys)
    (hsig : 0 < cfg.sigma) (hrho : 0 < cfg.rho) (ha : 0 < cfg.alpha) (ha2 : cfg.alpha < 2)
    (hadapt : cfg.adaptiveRho = false) (hcheck : 0 < cfg.checkTermination) (heps : 0 ≤ cfg.epsAbs) (hrel : 0 ≤ cfg.epsRel)
    {mu d : ℝ} (hmu : 0 < mu) (hmus : mu ≤ cfg.sigma) (hmur : ∀ j, mu ≤ stepSize qp cfg.rho j) (hd : 0 < d)
    (hd1 : ∀ j, d * (1 + ∑ i, |rowEntry qp j i|) ≤ cfg.epsAbs)
    (hd2 : ∀ i, d * (cfg.sigma + ∑ l, |qp.H i l| + ∑ j, stepSize qp cfg.rho j * |rowEntry qp j i|) ≤ cfg.epsAbs)
    {L : ℕ} (hL1 : 1 ≤ L) (hL : guessError qp cfg xg xs yg ys ≤ L * (cfg.alpha * (2 - cfg.alpha) * mu * d ^ 2))
    (hmax : cfg.checkTermination * L ≤ cfg.maxIter) :
    ∃ st, solve both lin sq cfg qp xg yg old = some st ∧ st.info.status = .SOLVED ∧ st.info.iter ≤ cfg.checkTermination * L := by
  have hp := setup_rhoVec_pos (both := both) (qp := qp) (xg := xg) (yg := yg) (old := old) hrho
  have hrun := iterate_run (xg := xg) (yg := yg) (old := old) hex hconv (consistent_of_kkt hk) hsig hrho
  have hc : 0 < cfg.alpha * (2 - cfg.alpha) := mul_pos ha (by linarith)
  set c := cfg.checkTermination.toNat with hcd
  have hc1 : 1 ≤ c := by omega
  have hcc : (c : ℤ) = cfg.checkTermination := by omega
  obtain ⟨i, hi1, hi2, hi⟩ := exists_small (c := c) (L := L) (t := cfg.alpha * (2 - cfg.alpha) * mu * d ^ 2)
    (V := fun k => AdmmMath.lyap cfg.sigma (setup both cfg qp xg yg old).rhoVec (iterate both lin cfg qp xg yg old (k + 1)).x
      (iterate both lin cfg qp xg yg old (k + 1)).z (iterate both lin cfg qp xg yg old (k + 1)).y xs (constructA qp.A *ᵥ xs) ys)
    (e := fun k => cfg.alpha * (2 - cfg.alpha) * AdmmMath.stepSq (constructA qp.A) cfg.sigma (setup both cfg qp xg yg old).rhoVec
      (iterate both lin cfg qp xg yg old (k + 1)).x (iterate both lin cfg qp xg yg old (k + 1)).z (iterate both lin cfg qp xg yg old (k + 2)).xTilde)
    (fun k => AdmmMath.lyap_nonneg hsig.le hp _ _ _ _ _ _) (fun k => mul_nonneg hc.le (AdmmMath.stepSq_nonneg _ hsig.le hp _ _ _))
    (fun k => AdmmMath.lyap_descent hconv.2 ha.le hp (hrun.cone k) (hrun.step k) (kkt_stat hk) (kkt_cone hk)) hc1 hL1
    ((lyap_first hex hconv hsig hrho ha ha2 hk).trans hL)
  have hci : 1 ≤ c * i := Nat.mul_pos hc1 hi1
  have hsmall := le_of_mul_le_mul_left (hi.trans_eq (by ring : _ = cfg.alpha * (2 - cfg.alpha) * (mu * d ^ 2))) hc
  obtain ⟨q1, q2⟩ := small_step (hrun.step (c * i - 1)) hmu hmus (fun j => by rw [stepSize_eq]; exact hmur j) hd.le hsmall
  have hci' : c * i - 1 + 1 = c * i := by omega
  simp only [hci'] at q1 q2
  -- the test at pass `c i` accepts
  have r1 : infNorm (qp.rows (iterate both lin cfg qp xg yg old (c * i)).x - (iterate both lin cfg qp xg yg old (c * i)).z) ≤ cfg.epsAbs := by
    rw [infNorm_le_iff]
    refine ⟨heps, fun j => ?_⟩
    rw [QP.rows_eq]
    refine (q1 j).trans (le_trans (le_of_eq ?_) (hd1 j))
    simp only [constructA_entry]
  have r2 : infNorm (qp.lagrangianGradient (iterate both lin cfg qp xg yg old (c * i)).x (iterate both lin cfg qp xg yg old (c * i)).y) ≤ cfg.epsAbs := by
    rw [infNorm_le_iff]
    refine ⟨heps, fun l => ?_⟩
    rw [QP.lagrangianGradient_eq]
    refine (q2 l).trans (le_trans (le_of_eq ?_) (hd2 l))
    simp only [constructA_entry, stepSize_eq]
  have hpass := stops_by hadapt (sq := sq) (xg := xg) (yg := yg) (old := old) hcheck hrel hci (by rw [← hcc]; exact ⟨(i : ℤ), by push_cast; rfl⟩) r1 r2
  obtain ⟨j, t, t', hj, hr, hb⟩ := hpass
  have hcL : ((c * i : ℕ) : ℤ) ≤ cfg.checkTermination * L := by
    rw [← hcc]; push_cast
    exact mul_le_mul_of_nonneg_left (by exact_mod_cast hi2) (by positivity)
  obtain ⟨st, h1, h2⟩ := solved_of_brk (m := cfg.maxIter) (Or.inl hadapt) hr hb (by omega)
  have h1 : solve both lin sq cfg qp xg yg old = some st := h1
  refine ⟨st, h1, h2, ?_⟩
  rcases solve_cases h1 with ⟨j', u, u', hr', hb', _, rfl⟩ | ⟨u, _, rfl⟩
  · show ((j' + 1 : ℕ) : ℤ) ≤ _
    rcases Nat.lt_or_ge j j' with hlt | hge
    · exfalso
      obtain ⟨w, hw⟩ := running_prefix hr' (j + 1) hlt
      cases hw with
      | cont h3 b3 =>
        have := running_unique h3 hr
        subst this
        rw [b3] at hb
        cases hb
    · omega
  · cases h2

/-! ## Non-vacuity -/

/-- The bound for `min ½ x² + x` subject to `-1 ≤ x ≤ 1` (and the row `-2 ≤ x ≤ 2`) from the guess zero, with `rho = sigma = 1`, `alpha = 1`, tolerances
`1/10` and a test after every pass: 4800 passes suffice. -/
example {lin : KktMat ℝ 1 1 → (KktIdx 1 1 → ℝ) → (KktIdx 1 1 → ℝ)} (hex : ExactSolver both lin) (old : State ℝ 1 1) :
    ∃ st, solveCold both lin sq { (Settings.default : Settings ℝ) with maxIter := 4800, rho := 1, sigma := 1, epsAbs := 1 / 10, epsRel := 0, checkTermination := 1 }
      ⟨1, fun _ => 1, fun _ _ => 1, fun _ => -2, fun _ => 2, fun _ => -1, fun _ => 1⟩ old = some st ∧ st.info.status = .SOLVED ∧ st.info.iter ≤ 4800 := by
  set qp : QP ℝ 1 1 := ⟨1, fun _ => 1, fun _ _ => 1, fun _ => -2, fun _ => 2, fun _ => -1, fun _ => 1⟩ with hqp
  have hs : ∀ j, stepSize qp 1 j = 1 := by
    rintro (j | j) <;> norm_num [stepSize, QP.lower, QP.upper, hqp]
  have hkkt : qp.KKT (fun _ => -1) (fun _ => 0) := by
    constructor
    · funext i; simp [QP.lagrangianGradient, hqp, QP.yA, QP.yBox, Matrix.mulVec, dotProduct]
    · rintro (i | i) <;> norm_num [hqp, QP.lower, QP.upper, QP.rows, Matrix.mulVec, dotProduct]
  have hH : ∀ i l : Fin 1, qp.H i l = 1 := fun i l => by
    rw [Subsingleton.elim i l]; exact Matrix.one_apply_eq l
  have hre : ∀ (j : Fin 1 ⊕ Fin 1) (i : Fin 1), rowEntry qp j i = 1 := by
    rintro (j | j) i
    · rfl
    · show (if j = i then (1 : ℝ) else 0) = 1
      rw [if_pos (Subsingleton.elim _ _)]
  have hrow : ∀ (v : Fin 1 → ℝ) (j : Fin 1 ⊕ Fin 1), qp.rows v j = v 0 := by
    intro v j
    rcases j with j | j
    · simp [QP.rows, hqp, Matrix.mulVec, dotProduct]
    · show v j = v 0
      rw [Subsingleton.elim j 0]
  refine iteration_bound (cfg := { (Settings.default : Settings ℝ) with maxIter := 4800, rho := 1, sigma := 1, epsAbs := 1 / 10, epsRel := 0, checkTermination := 1 })
    (mu := 1) (d := 1 / 40) (L := 4800) hex ⟨Matrix.transpose_one, fun x => ?_⟩ hkkt one_pos one_pos (by norm_num [Settings.default]) (by norm_num [Settings.default]) rfl one_pos
    (by norm_num) le_rfl one_pos le_rfl (fun j => (hs j).ge) (by norm_num) (fun j => ?_) (fun i => ?_) (by norm_num) ?_ (by norm_num)
  · rw [show qp.H = 1 from rfl, Matrix.one_mulVec]; exact Finset.sum_nonneg fun i _ => mul_self_nonneg _
  · simp only [hre]; norm_num
  · simp only [hH, hre, hs]; norm_num
  · unfold guessError
    simp only [hs, hrow]
    norm_num [Settings.default]

end PolyMPC.Admm
