import Verif.Model.Admm
import Mathlib.Tactic.Linarith
import Mathlib.Tactic.Ring
import Mathlib.Tactic.LinearCombination
import Mathlib.Tactic.Set
import Mathlib.Tactic.FieldSimp
import Mathlib.Tactic.NormNum
import Mathlib.Tactic.Positivity

/-! Helper lemmas for the ADMM model. -/

set_option linter.unusedSectionVars false

namespace PolyMPC.Admm
open Matrix PolyMPC.Spec PolyMPC.QPBase

variable {K : Type*} [Field K] [LinearOrder K] [IsStrictOrderedRing K] {N M : ℕ}
variable {both : Bool} {lin : KktMat K N M → (KktIdx N M → K) → (KktIdx N M → K)} {sq : K → K} {cfg : Settings K}
  {qp : QP K N M} {xg : Fin N → K} {yg : Fin M ⊕ Fin N → K} {old : State K N M}

theorem rhoMin_pos : (0 : K) < rhoMin := by unfold rhoMin; norm_num

theorem clampRho_bounds (r : K) : rhoMin ≤ clampRho r ∧ clampRho r ≤ rhoMax := by
  unfold clampRho
  refine ⟨le_max_left _ _, max_le ?_ (min_le_right _ _)⟩
  unfold rhoMin rhoMax; norm_num

theorem clampRho_pos (r : K) : 0 < clampRho r := lt_of_lt_of_le rhoMin_pos (clampRho_bounds r).1

theorem rhoEntry_pos (t : ConstraintType) {r : K} (h : 0 < r) : 0 < rhoEntry t r := by
  cases t
  · exact h
  · exact mul_pos (by unfold rhoEqFactor; norm_num) h
  · exact rhoMin_pos

/-! ### Which fields a pass can change -/

theorem residualsUpdate_x (st : State K N M) : (residualsUpdate qp st).x = st.x := rfl
theorem residualsUpdate_y (st : State K N M) : (residualsUpdate qp st).y = st.y := rfl
theorem residualsUpdate_z (st : State K N M) : (residualsUpdate qp st).z = st.z := rfl

/-- The state `s` agrees with `t` in everything the iteration formulas read, except step sizes and matrices. -/
def SameIter (s t : State K N M) : Prop := s.x = t.x ∧ s.y = t.y ∧ s.z = t.z ∧ s.zPrev = t.zPrev ∧
  s.xTilde = t.xTilde ∧ s.zTilde = t.zTilde ∧ s.A = t.A ∧ s.constrType = t.constrType ∧ s.boxType = t.boxType

theorem SameIter.refl (s : State K N M) : SameIter s s := ⟨rfl, rfl, rfl, rfl, rfl, rfl, rfl, rfl, rfl⟩

theorem adaptRho_cases (sq : K → K) (cfg : Settings K) (st : State K N M) :
    (∃ r, rhoMin ≤ r ∧ r ≤ rhoMax ∧ adaptRho sq cfg st =
      factorise (updateKktRho (rhoVecUpdate r { st with info := { st.info with rhoEstimate := r } }))) ∨
    (∃ r, adaptRho sq cfg st = { st with info := { st.info with rhoEstimate := r } }) := by
  by_cases h : clampRho (estimateRho sq st st.rho) < st.rho / cfg.adaptiveRhoTolerance ∨
      clampRho (estimateRho sq st st.rho) > st.rho * cfg.adaptiveRhoTolerance
  · exact Or.inl ⟨clampRho (estimateRho sq st st.rho), (clampRho_bounds _).1, (clampRho_bounds _).2, by simp only [adaptRho, if_pos h]⟩
  · exact Or.inr ⟨_, by simp only [adaptRho, if_neg h]; rfl⟩

theorem sameIter_adaptRho (st : State K N M) : SameIter (adaptRho sq cfg st) st := by
  rcases adaptRho_cases sq cfg st with ⟨r, _, _, h⟩ | ⟨r, h⟩ <;> rw [h]
  · exact ⟨rfl, rfl, rfl, rfl, rfl, rfl, rfl, rfl, rfl⟩
  · exact ⟨rfl, rfl, rfl, rfl, rfl, rfl, rfl, rfl, rfl⟩

/-- Case analysis of one pass. -/
theorem body_cases (iter : ℤ) (st : State K N M) :
    (∃ s, body lin sq cfg qp iter st = .brk s ∧ checkNow cfg iter = true ∧
      s = { residualsUpdate qp (admmUpdate lin cfg qp st) with
            info := { (residualsUpdate qp (admmUpdate lin cfg qp st)).info with status := .SOLVED } } ∧
      terminationCriteria cfg (residualsUpdate qp (admmUpdate lin cfg qp st)) = true) ∨
    (body lin sq cfg qp iter st = .ub ∧ cfg.adaptiveRho = true ∧ cfg.adaptiveRhoInterval = 0) ∨
    (∃ s2, (s2 = admmUpdate lin cfg qp st ∨ s2 = residualsUpdate qp (admmUpdate lin cfg qp st)) ∧
      (checkNow cfg iter = true → s2 = residualsUpdate qp (admmUpdate lin cfg qp st) ∧
        terminationCriteria cfg s2 = false) ∧
      (body lin sq cfg qp iter st = .cont s2 ∨
       (cfg.adaptiveRho = true ∧ cfg.adaptiveRhoInterval ≠ 0 ∧ iter.tmod cfg.adaptiveRhoInterval = 0 ∧
        s2 = residualsUpdate qp (admmUpdate lin cfg qp st) ∧
        body lin sq cfg qp iter st = .cont (adaptRho sq cfg s2)))) := by
  unfold body
  cases hc : checkNow cfg iter with
  | true =>
    simp only [if_true, Bool.true_and]
    cases ht : terminationCriteria cfg (residualsUpdate qp (admmUpdate lin cfg qp st)) with
    | true => left; simp
    | false =>
      right
      simp only [Bool.false_eq_true, if_false]
      cases ha : cfg.adaptiveRho with
      | false =>
        right; simp only [Bool.false_eq_true, if_false]
        exact ⟨_, Or.inr rfl, fun _ => ⟨rfl, ht⟩, Or.inl rfl⟩
      | true =>
        simp only [if_true]
        by_cases h0 : cfg.adaptiveRhoInterval = 0
        · left; simp [h0]
        · right
          simp only [h0, if_false]
          by_cases hm : iter.tmod cfg.adaptiveRhoInterval = 0
          · simp only [hm, if_true]
            exact ⟨_, Or.inr rfl, fun _ => ⟨rfl, ht⟩, Or.inr ⟨trivial, h0, trivial, rfl, rfl⟩⟩
          · simp only [hm, if_false]
            exact ⟨_, Or.inr rfl, fun _ => ⟨rfl, ht⟩, Or.inl rfl⟩
  | false =>
    right
    simp only [Bool.false_and, Bool.false_eq_true, if_false]
    cases ha : cfg.adaptiveRho with
    | false =>
      right; simp only [Bool.false_eq_true, if_false]
      exact ⟨_, Or.inl rfl, fun h => by simp at h, Or.inl rfl⟩
    | true =>
      simp only [if_true]
      by_cases h0 : cfg.adaptiveRhoInterval = 0
      · left; simp [h0]
      · right
        simp only [h0, if_false]
        by_cases hm : iter.tmod cfg.adaptiveRhoInterval = 0
        · simp only [hm, if_true]
          exact ⟨_, Or.inr rfl, fun h => by simp at h, Or.inr ⟨trivial, h0, trivial, rfl, rfl⟩⟩
        · simp only [hm, if_false]
          exact ⟨_, Or.inl rfl, fun h => by simp at h, Or.inl rfl⟩

/-- Whatever a pass does with residuals and step sizes, the iterates are those of `admmUpdate`. -/
theorem body_sameIter {iter : ℤ} {st s : State K N M}
    (h : body lin sq cfg qp iter st = .cont s ∨ body lin sq cfg qp iter st = .brk s) :
    SameIter s (admmUpdate lin cfg qp st) := by
  rcases body_cases (lin := lin) (sq := sq) (cfg := cfg) (qp := qp) iter st with
    ⟨s', hb, _, rfl, _⟩ | ⟨hb, _⟩ | ⟨s2, hs2, _, hb | ⟨_, _, _, _, hb⟩⟩
  · rw [hb] at h
    rcases h with h | h
    · cases h
    · cases h; exact ⟨rfl, rfl, rfl, rfl, rfl, rfl, rfl, rfl, rfl⟩
  · rw [hb] at h; rcases h with h | h <;> cases h
  · rw [hb] at h
    rcases h with h | h
    · cases h
      rcases hs2 with rfl | rfl <;> exact ⟨rfl, rfl, rfl, rfl, rfl, rfl, rfl, rfl, rfl⟩
    · cases h
  · rw [hb] at h
    rcases h with h | h
    · cases h
      have := sameIter_adaptRho (sq := sq) (cfg := cfg) s2
      rcases hs2 with rfl | rfl <;> exact this
    · cases h

/-! ### The loop -/

/-- What the loop returns. -/
theorem loop_spec (n : ℕ) (k : ℕ) (st st' : State K N M) (it : ℤ)
    (hrun : Running both lin sq cfg qp xg yg old k st)
    (h : loop lin sq cfg qp n (k + 1 : ℕ) st = some (it, st')) :
    (it = (k + n + 1 : ℕ) ∧ Running both lin sq cfg qp xg yg old (k + n) st') ∨
    (∃ j s, k ≤ j ∧ j < k + n ∧ it = (j + 1 : ℕ) ∧ Running both lin sq cfg qp xg yg old j s ∧
      body lin sq cfg qp (j + 1 : ℕ) s = .brk st') := by
  induction n generalizing k st with
  | zero =>
    simp only [loop, Option.some.injEq, Prod.mk.injEq] at h
    obtain ⟨rfl, rfl⟩ := h
    exact Or.inl ⟨rfl, hrun⟩
  | succ n ih =>
    simp only [loop] at h
    split at h
    · cases h
    · rename_i s hb
      simp only [Option.some.injEq, Prod.mk.injEq] at h
      obtain ⟨rfl, rfl⟩ := h
      exact Or.inr ⟨k, st, le_rfl, by omega, rfl, hrun, hb⟩
    · rename_i s hb
      have hcast : (((k + 1 : ℕ) : ℤ) + 1) = ((k + 1 + 1 : ℕ) : ℤ) := by push_cast; ring
      rw [hcast] at h
      rcases ih (k + 1) s (Running.cont hrun hb) h with ⟨h1, h2⟩ | ⟨j, s', h1, h2, h3, h4, h5⟩
      · left
        refine ⟨by rw [h1]; congr 1; omega, ?_⟩
        have : k + (n + 1) = k + 1 + n := by omega
        rw [this]; exact h2
      · right
        exact ⟨j, s', by omega, by omega, h3, h4, h5⟩

/-- The two ways a call of `solve` can end. -/
theorem solve_cases {st : State K N M} (h : solve both lin sq cfg qp xg yg old = some st) :
    (∃ j s s', Running both lin sq cfg qp xg yg old j s ∧ body lin sq cfg qp (j + 1 : ℕ) s = .brk s' ∧
      ((j + 1 : ℕ) : ℤ) ≤ cfg.maxIter ∧ st = { s' with info := { s'.info with iter := (j + 1 : ℕ) } }) ∨
    (∃ s, Running both lin sq cfg qp xg yg old cfg.maxIter.toNat s ∧
      st = { s with info := { s.info with status := .MAX_ITER_EXCEEDED, iter := (cfg.maxIter.toNat + 1 : ℕ) } }) := by
  unfold solve at h
  split at h
  · cases h
  · rename_i it s hl
    have h1 : (1 : ℤ) = ((0 + 1 : ℕ) : ℤ) := by norm_num
    rw [h1] at hl
    have := loop_spec (both := both) (xg := xg) (yg := yg) (old := old) _ 0 _ s it Running.init hl
    simp only [Nat.zero_add] at this
    rcases this with ⟨rfl, hr⟩ | ⟨j, s0, _, hj, rfl, hr, hb⟩
    · right
      refine ⟨s, hr, ?_⟩
      have hgt : ((cfg.maxIter.toNat + 1 : ℕ) : ℤ) > cfg.maxIter := by
        push_cast; have := Int.self_le_toNat cfg.maxIter; omega
      simp only [hgt, if_true, Option.some.injEq] at h
      exact h.symm
    · left
      refine ⟨j, s0, s, hr, hb, by omega, ?_⟩
      have hle : ¬ ((j + 1 : ℕ) : ℤ) > cfg.maxIter := by omega
      simp only [hle, if_false, Option.some.injEq] at h
      exact h.symm

/-- A run that breaks out of the loop has status SOLVED and up-to-date residuals. -/
theorem brk_spec {iter : ℤ} {s s' : State K N M} (hb : body lin sq cfg qp iter s = .brk s') :
    checkNow cfg iter = true ∧
    s' = { residualsUpdate qp (admmUpdate lin cfg qp s) with
            info := { (residualsUpdate qp (admmUpdate lin cfg qp s)).info with status := .SOLVED } } ∧
    terminationCriteria cfg (residualsUpdate qp (admmUpdate lin cfg qp s)) = true := by
  rcases body_cases (lin := lin) (sq := sq) (cfg := cfg) (qp := qp) iter s with
    ⟨s1, hb', h1, h2, h3⟩ | ⟨hb', _⟩ | ⟨s2, hs2, _, hb' | ⟨_, _, _, _, hb'⟩⟩
  · rw [hb'] at hb; cases hb; exact ⟨h1, h2, h3⟩
  · rw [hb'] at hb; cases hb
  · rw [hb'] at hb; cases hb
  · rw [hb'] at hb; cases hb

/-! ### Step-size invariants -/

/-- The step-size vectors match the kinds of the constraints, the scalar `rho` is positive, and `m_K` and the factorised
matrix are the assembled matrix for the current step sizes. -/
structure StepInv (both : Bool) (cfg : Settings K) (qp : QP K N M) (topRight : Matrix (Fin N) (Fin M ⊕ Fin N) K)
    (st : State K N M) : Prop where
  ct : st.constrType = parseConstr qp.Alb qp.Aub
  bt : st.boxType = parseBox qp.xlb qp.xub
  hA : st.A = constructA qp.A
  rv : st.rhoVec = Sum.elim (fun i => rhoEntry (st.constrType i) st.rho) (fun i => rhoEntry (st.boxType i) st.rho)
  ri : st.rhoInvVec = fun i => (st.rhoVec i)⁻¹
  kkt : st.kkt = Matrix.fromBlocks (qp.H + Matrix.diagonal fun _ => cfg.sigma)
    (if both then (constructA qp.A)ᵀ else topRight) (constructA qp.A) ((-1 : K) • Matrix.diagonal st.rhoInvVec)
  fact : st.fact = st.kkt

theorem stepInv_setup : StepInv both cfg qp old.kkt.toBlocks₁₂ (setup both cfg qp xg yg old) where
  ct := rfl
  bt := rfl
  hA := rfl
  rv := rfl
  ri := rfl
  kkt := rfl
  fact := rfl

theorem updateKktRho_kkt {st : State K N M} {P : Matrix (Fin N) (Fin N) K} {Q : Matrix (Fin N) (Fin M ⊕ Fin N) K}
    {R : Matrix (Fin M ⊕ Fin N) (Fin N) K} {d : Fin M ⊕ Fin N → K}
    (h : st.kkt = Matrix.fromBlocks P Q R ((-1 : K) • Matrix.diagonal d)) :
    (updateKktRho st).kkt = Matrix.fromBlocks P Q R ((-1 : K) • Matrix.diagonal st.rhoInvVec) := by
  ext i j
  unfold updateKktRho
  rcases i with i | i <;> rcases j with j | j
  · simp [h]
  · simp [h]
  · simp [h]
  · simp only [h, Matrix.fromBlocks_apply₂₂, Matrix.smul_apply, Matrix.diagonal_apply, smul_eq_mul]
    by_cases hij : i = j
    · simp [hij]
    · simp [hij]

theorem stepInv_adaptRho {T : Matrix (Fin N) (Fin M ⊕ Fin N) K} {st : State K N M} (h : StepInv both cfg qp T st) :
    StepInv both cfg qp T (adaptRho sq cfg st) := by
  rcases adaptRho_cases sq cfg st with ⟨r, _, _, hr⟩ | ⟨r, hr⟩ <;> rw [hr]
  · refine ⟨h.ct, h.bt, h.hA, rfl, rfl, ?_, rfl⟩
    have := updateKktRho_kkt (st := rhoVecUpdate r { st with info := { st.info with rhoEstimate := r } }) h.kkt
    exact this
  · exact ⟨h.ct, h.bt, h.hA, h.rv, h.ri, h.kkt, h.fact⟩

theorem stepInv_body {T : Matrix (Fin N) (Fin M ⊕ Fin N) K} {iter : ℤ} {st s : State K N M}
    (hi : StepInv both cfg qp T st)
    (h : body lin sq cfg qp iter st = .cont s ∨ body lin sq cfg qp iter st = .brk s) :
    StepInv both cfg qp T s := by
  have h1 : StepInv both cfg qp T (admmUpdate lin cfg qp st) := ⟨hi.ct, hi.bt, hi.hA, hi.rv, hi.ri, hi.kkt, hi.fact⟩
  have h2 : StepInv both cfg qp T (residualsUpdate qp (admmUpdate lin cfg qp st)) :=
    ⟨hi.ct, hi.bt, hi.hA, hi.rv, hi.ri, hi.kkt, hi.fact⟩
  rcases body_cases (lin := lin) (sq := sq) (cfg := cfg) (qp := qp) iter st with
    ⟨s', hb, _, rfl, _⟩ | ⟨hb, _⟩ | ⟨s2, hs2, _, hb | ⟨_, _, _, _, hb⟩⟩
  · rw [hb] at h
    rcases h with h | h <;> cases h
    exact ⟨hi.ct, hi.bt, hi.hA, hi.rv, hi.ri, hi.kkt, hi.fact⟩
  · rw [hb] at h; rcases h with h | h <;> cases h
  · rw [hb] at h
    rcases h with h | h <;> cases h
    rcases hs2 with rfl | rfl
    · exact h1
    · exact h2
  · rw [hb] at h
    rcases h with h | h <;> cases h
    rcases hs2 with rfl | rfl
    · exact stepInv_adaptRho h1
    · exact stepInv_adaptRho h2

theorem stepInv_running {k : ℕ} {st : State K N M} (h : Running both lin sq cfg qp xg yg old k st) :
    StepInv both cfg qp old.kkt.toBlocks₁₂ st := by
  induction h with
  | init => exact stepInv_setup
  | cont _ hb ih => exact stepInv_body ih (Or.inl hb)

theorem stepInv_afterPass {k : ℕ} {st : State K N M} (h : AfterPass both lin sq cfg qp xg yg old k st) :
    StepInv both cfg qp old.kkt.toBlocks₁₂ st := by
  obtain ⟨k', st', rfl, hr, hb⟩ := h
  exact stepInv_body (stepInv_running hr) hb

theorem adaptRho_rho (st : State K N M) :
    (adaptRho sq cfg st).rho = st.rho ∨ (rhoMin ≤ (adaptRho sq cfg st).rho ∧ (adaptRho sq cfg st).rho ≤ rhoMax) := by
  rcases adaptRho_cases sq cfg st with ⟨r, h1, h2, hr⟩ | ⟨r, hr⟩ <;> rw [hr]
  · exact Or.inr ⟨h1, h2⟩
  · exact Or.inl rfl

/-- The scalar step size is the configured one or within the limits. -/
theorem rho_body {iter : ℤ} {st s : State K N M}
    (h : body lin sq cfg qp iter st = .cont s ∨ body lin sq cfg qp iter st = .brk s) :
    s.rho = st.rho ∨ (cfg.adaptiveRho = true ∧ rhoMin ≤ s.rho ∧ s.rho ≤ rhoMax) := by
  rcases body_cases (lin := lin) (sq := sq) (cfg := cfg) (qp := qp) iter st with
    ⟨s', hb, _, rfl, _⟩ | ⟨hb, _⟩ | ⟨s2, hs2, _, hb | ⟨ha, _, _, _, hb⟩⟩
  · rw [hb] at h
    rcases h with h | h <;> cases h
    exact Or.inl rfl
  · rw [hb] at h; rcases h with h | h <;> cases h
  · rw [hb] at h
    rcases h with h | h <;> cases h
    left
    rcases hs2 with rfl | rfl <;> rfl
  · rw [hb] at h
    rcases h with h | h <;> cases h
    have hs2r : s2.rho = st.rho := by rcases hs2 with rfl | rfl <;> rfl
    rcases adaptRho_rho (sq := sq) (cfg := cfg) s2 with h | h
    · left; rw [h, hs2r]
    · right; exact ⟨ha, h⟩

theorem rho_running {k : ℕ} {st : State K N M} (h : Running both lin sq cfg qp xg yg old k st) :
    st.rho = cfg.rho ∨ (cfg.adaptiveRho = true ∧ rhoMin ≤ st.rho ∧ st.rho ≤ rhoMax) := by
  induction h with
  | init => exact Or.inl rfl
  | cont _ hb ih =>
    rcases rho_body (Or.inl hb) with h | h
    · rw [h]; exact ih
    · exact Or.inr h

theorem rho_pos_running (hrho : 0 < cfg.rho) {k : ℕ} {st : State K N M}
    (h : Running both lin sq cfg qp xg yg old k st) : 0 < st.rho := by
  rcases rho_running h with h | h
  · rw [h]; exact hrho
  · exact lt_of_lt_of_le rhoMin_pos h.2.1

theorem StepInv.rhoVec_pos {T : Matrix (Fin N) (Fin M ⊕ Fin N) K} {st : State K N M} (h : StepInv both cfg qp T st)
    (hr : 0 < st.rho) (i : Fin M ⊕ Fin N) : 0 < st.rhoVec i := by
  rw [h.rv]
  rcases i with i | i
  · exact rhoEntry_pos _ hr
  · exact rhoEntry_pos _ hr

/-! ### The update formulas -/

theorem boxProjection_apply (v : Fin M ⊕ Fin N → K) (i : Fin M ⊕ Fin N) :
    boxProjection v qp.Alb qp.Aub qp.xlb qp.xub i = min (max (v i) (qp.lower i)) (qp.upper i) := by
  rcases i with i | i <;> rfl

/-- Argument of the projection in the `z` update. -/
def projArg (lin : KktMat K N M → (KktIdx N M → K) → (KktIdx N M → K)) (cfg : Settings K) (qp : QP K N M)
    (st : State K N M) (i : Fin M ⊕ Fin N) : K :=
  cfg.alpha * (admmUpdate lin cfg qp st).zTilde i + ((1 - cfg.alpha) * st.z i + st.rhoInvVec i * st.y i)

theorem admmUpdate_z (st : State K N M) (i : Fin M ⊕ Fin N) :
    (admmUpdate lin cfg qp st).z i = min (max (projArg lin cfg qp st i) (qp.lower i)) (qp.upper i) := by
  simp only [admmUpdate, projArg]
  rw [boxProjection_apply]

theorem admmUpdate_y (st : State K N M) (i : Fin M ⊕ Fin N) (h : st.rhoVec i * st.rhoInvVec i = 1) :
    (admmUpdate lin cfg qp st).y i = st.rhoVec i * (projArg lin cfg qp st i - (admmUpdate lin cfg qp st).z i) := by
  have : (admmUpdate lin cfg qp st).y i = st.y i + st.rhoVec i *
    (cfg.alpha * (admmUpdate lin cfg qp st).zTilde i + (1 - cfg.alpha) * st.z i - (admmUpdate lin cfg qp st).z i) := rfl
  rw [this, projArg]
  linear_combination -(st.y i) * h

theorem clip_mem {v l u : K} (h : l ≤ u) : l ≤ min (max v l) u ∧ min (max v l) u ≤ u :=
  ⟨le_min (le_max_right _ _) h, min_le_right _ _⟩

theorem clip_of_lt {v l u : K} (h : min (max v l) u < v) : min (max v l) u = u := by
  rcases min_choice (max v l) u with h' | h'
  · rw [h'] at h; exact absurd h (not_lt.mpr (le_max_left _ _))
  · exact h'

theorem clip_of_gt {v l u : K} (hlu : l ≤ u) (h : v < min (max v l) u) : min (max v l) u = l := by
  have h1 : v < max v l := lt_of_lt_of_le h (min_le_left _ _)
  have h2 : max v l = l := by
    rcases max_choice v l with h' | h'
    · rw [h'] at h1; exact absurd h1 (lt_irrefl _)
    · exact h'
  rw [h2]; exact min_eq_left hlu

end PolyMPC.Admm
