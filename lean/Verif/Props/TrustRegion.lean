import Verif.Model.TrustRegion
import Mathlib.LinearAlgebra.Matrix.NonsingularInverse
import Mathlib.Algebra.BigOperators.Fin
import Mathlib.Analysis.Matrix.PosDef
import Mathlib.Tactic.FieldSimp
import Mathlib.Tactic.Linarith
import Mathlib.Tactic.NormNum
import Mathlib.Tactic.Positivity
import Mathlib.Tactic.Ring

/-!
# The trust-region prototype takes steps that are too long (C234)
-/

set_option linter.unusedVariables false

namespace PolyMPC.Spec.TrustRegion
open Matrix PolyMPC.TrustRegion

/-- A Cholesky decomposition that succeeds exactly for positive definite matrices and is then exact. -/
structure Exact {n : ℕ} (c : Llt n) : Prop where
  ok : ∀ M : Matrix (Fin n) (Fin n) ℝ, Mᵀ = M → (c.ok M = true ↔ M.PosDef)
  solve : ∀ M : Matrix (Fin n) (Fin n) ℝ, M.PosDef → ∀ b, M *ᵥ c.solve M b = b
  lsolve : ∀ M : Matrix (Fin n) (Fin n) ℝ, M.PosDef → ∀ b, ∃ L : Matrix (Fin n) (Fin n) ℝ, L * Lᵀ = M ∧ L *ᵥ c.lsolve M b = b

/-- A quadratic cost with its derivatives. -/
def Quadratic {n : ℕ} (prob : Objective n) : Prop :=
  ∃ (H : Matrix (Fin n) (Fin n) ℝ) (h : Fin n → ℝ) (c0 : ℝ), Hᵀ = H ∧ (∀ x, prob.f x = 1 / 2 * (x ⬝ᵥ H *ᵥ x) + h ⬝ᵥ x + c0) ∧
    (∀ x, prob.grad x = H *ᵥ x + h) ∧ ∀ x, prob.hess x = H

/-- All matrices that are factorised in `k` passes of the inner loop and afterwards are positive definite. -/
def AllOk {n : ℕ} (c : Llt n) (B : Matrix (Fin n) (Fin n) ℝ) (g : Fin n → ℝ) (rad : ℝ) : ℕ → ℝ → Prop
  | 0, lam => (B + lam • (1 : Matrix (Fin n) (Fin n) ℝ)).PosDef
  | k + 1, lam => (B + lam • (1 : Matrix (Fin n) (Fin n) ℝ)).PosDef ∧ ∀ lam', pass c B g rad lam = some lam' → AllOk c B g rad k lam'

end PolyMPC.Spec.TrustRegion

namespace PolyMPC.TrustRegion
open Matrix PolyMPC.Spec.TrustRegion

variable {n : ℕ} {c : Llt n}

theorem dot_nonneg (p : Fin n → ℝ) : 0 ≤ p ⬝ᵥ p := Finset.sum_nonneg fun i _ => mul_self_nonneg _

theorem norm_sq (p : Fin n → ℝ) : norm p ^ 2 = p ⬝ᵥ p := Real.sq_sqrt (dot_nonneg p)

theorem norm_nonneg (p : Fin n → ℝ) : 0 ≤ norm p := Real.sqrt_nonneg _

theorem dot_le_norm (p y : Fin n → ℝ) : p ⬝ᵥ y ≤ norm p * norm y := by
  have h : (p ⬝ᵥ y) ^ 2 ≤ (norm p * norm y) ^ 2 := by
    rw [mul_pow, norm_sq, norm_sq]
    have := Finset.sum_mul_sq_le_sq_mul_sq Finset.univ p y
    simpa [dotProduct, sq] using this
  exact le_of_sq_le_sq h (mul_nonneg (norm_nonneg p) (norm_nonneg y))

theorem swap {M : Matrix (Fin n) (Fin n) ℝ} (hM : Mᵀ = M) (x y : Fin n → ℝ) : x ⬝ᵥ M *ᵥ y = (M *ᵥ x) ⬝ᵥ y := by
  rw [dotProduct_mulVec, ← mulVec_transpose, hM]

theorem posdef_symm {M : Matrix (Fin n) (Fin n) ℝ} (h : M.PosDef) : Mᵀ = M := by
  have := h.1
  rwa [IsHermitian, conjTranspose_eq_transpose_of_trivial] at this

theorem posdef_form {M : Matrix (Fin n) (Fin n) ℝ} (h : M.PosDef) (x : Fin n → ℝ) : 0 ≤ x ⬝ᵥ M *ᵥ x := by
  have := h.posSemidef.dotProduct_mulVec_nonneg x
  simpa using this

/-- A Newton step for the length of the step: the result is not shorter than the radius. -/
theorem newton_long {B : Matrix (Fin n) (Fin n) ℝ} {lam lam' rad : ℝ} (hM : (shifted B lam).PosDef) (hM' : (shifted B lam').PosDef) {g p y w : Fin n → ℝ}
    (hp : shifted B lam *ᵥ p = -g) (hy : shifted B lam' *ᵥ y = -g) (hw : shifted B lam *ᵥ w = p) (hpos : 0 < w ⬝ᵥ p) (hrad : 0 < rad)
    (hlam : lam' = lam + p ⬝ᵥ p / (w ⬝ᵥ p) * (norm p - rad) / rad) : rad ≤ norm y := by
  have hMs := posdef_symm hM
  have hMs' := posdef_symm hM'
  have hdet : IsUnit (shifted B lam).det := isUnit_iff_ne_zero.2 hM.det_pos.ne'
  obtain ⟨z, hz⟩ : ∃ z, shifted B lam *ᵥ z = y := ⟨(shifted B lam)⁻¹ *ᵥ y, by rw [mulVec_mulVec, mul_nonsing_inv _ hdet, one_mulVec]⟩
  set d := lam' - lam with hd
  have hsh : ∀ v, shifted B lam' *ᵥ v = shifted B lam *ᵥ v + d • v := fun v => by
    have : shifted B lam' = shifted B lam + d • 1 := by unfold shifted; rw [hd, sub_smul]; abel
    rw [this, add_mulVec, smul_mulVec, one_mulVec]
  -- the form
  have hform : ∀ v, 0 ≤ (shifted B lam *ᵥ v) ⬝ᵥ (shifted B lam' *ᵥ v) := fun v => by
    rcases le_total 0 d with h | h
    · rw [hsh, dotProduct_add, dotProduct_smul, smul_eq_mul]
      have h1 := posdef_form hM v
      rw [dotProduct_comm] at h1
      exact add_nonneg (dot_nonneg _) (mul_nonneg h h1)
    · have e : shifted B lam *ᵥ v = shifted B lam' *ᵥ v - d • v := by rw [hsh]; abel
      rw [e, sub_dotProduct, smul_dotProduct, smul_eq_mul]
      have h1 := posdef_form hM' v
      have := mul_nonneg (neg_nonneg.2 h) h1
      linarith [dot_nonneg (shifted B lam' *ᵥ v)]
  have e1 : (shifted B lam *ᵥ z) ⬝ᵥ (shifted B lam' *ᵥ z) = p ⬝ᵥ y := by
    rw [hz, swap hMs', hy, ← hp, ← swap hMs, hz]
  have e2 : (shifted B lam *ᵥ z) ⬝ᵥ (shifted B lam' *ᵥ w) = p ⬝ᵥ p := by
    rw [hz, swap hMs', hy, ← hp, ← swap hMs, hw]
  have e3 : (shifted B lam *ᵥ w) ⬝ᵥ (shifted B lam' *ᵥ z) = p ⬝ᵥ p := by
    rw [swap hMs', dotProduct_comm, hw, hsh, hp, dotProduct_add, ← hp, dotProduct_smul, smul_eq_mul]
    rw [swap hMs, hz]
    have : y = p - d • z := by
      have h1 : shifted B lam *ᵥ (y + d • z) = shifted B lam *ᵥ p := by
        rw [mulVec_add, mulVec_smul, hz, ← hsh, hy, hp]
      have h2 := congrArg (fun v => (shifted B lam)⁻¹ *ᵥ v) h1
      simp only [mulVec_mulVec, nonsing_inv_mul _ hdet, one_mulVec] at h2
      rw [← h2]; abel
    rw [this, sub_dotProduct, smul_dotProduct, smul_eq_mul, dotProduct_comm z p]
    ring
  have e4 : (shifted B lam *ᵥ w) ⬝ᵥ (shifted B lam' *ᵥ w) = p ⬝ᵥ p + d * (w ⬝ᵥ p) := by
    rw [hsh, hw, dotProduct_add, dotProduct_smul, smul_eq_mul, dotProduct_comm p w]
  have hnp := norm_sq p
  have e5 : p ⬝ᵥ p + d * (w ⬝ᵥ p) = norm p ^ 3 / rad := by
    rw [hd, hlam, ← hnp]
    field_simp
    ring
  have hp0 : 0 < norm p := by
    rcases (norm_nonneg p).eq_or_lt with h | h
    · exfalso
      rw [← h] at hnp
      have h0 : p = 0 := by
        have : p ⬝ᵥ p = 0 := by rw [← hnp]; ring
        exact dotProduct_self_eq_zero.1 this
      rw [h0, dotProduct_zero] at hpos
      exact lt_irrefl _ hpos
    · exact h
  set T := norm p ^ 3 / rad with hT
  have hT0 : 0 < T := by positivity
  have hq := hform (T • z - (p ⬝ᵥ p) • w)
  rw [mulVec_sub, mulVec_sub, mulVec_smul, mulVec_smul, mulVec_smul, mulVec_smul, sub_dotProduct, dotProduct_sub, dotProduct_sub] at hq
  simp only [smul_dotProduct, dotProduct_smul, smul_eq_mul] at hq
  rw [e1, e2, e3, e4, e5] at hq
  have h1 : 0 ≤ T * (T * (p ⬝ᵥ y) - (p ⬝ᵥ p) ^ 2) := by nlinarith
  have h2 : (p ⬝ᵥ p) ^ 2 ≤ T * (p ⬝ᵥ y) := by
    have := nonneg_of_mul_nonneg_right h1 hT0
    linarith
  have h3 : norm p ^ 4 ≤ norm p ^ 3 / rad * (norm p * norm y) := by
    calc norm p ^ 4 = (p ⬝ᵥ p) ^ 2 := by rw [← hnp]; ring
      _ ≤ T * (p ⬝ᵥ y) := h2
      _ ≤ T * (norm p * norm y) := mul_le_mul_of_nonneg_left (dot_le_norm p y) hT0.le
  have h4 : norm p ^ 3 / rad * (norm p * norm y) = norm p ^ 4 * (norm y / rad) := by ring
  rw [h4] at h3
  have h5 : 1 ≤ norm y / rad := by
    by_contra h
    rw [not_le] at h
    have := mul_lt_mul_of_pos_left h (show 0 < norm p ^ 4 by positivity)
    linarith
  rwa [le_div_iff₀ hrad, one_mul] at h5

/-- `q.dot(q)` in terms of the inverse. -/
theorem lsolve_dot (hc : Exact c) {M : Matrix (Fin n) (Fin n) ℝ} (hM : M.PosDef) (p : Fin n → ℝ) :
    ∃ w, M *ᵥ w = p ∧ w ⬝ᵥ p = c.lsolve M p ⬝ᵥ c.lsolve M p := by
  obtain ⟨L, hL, hq⟩ := hc.lsolve M hM p
  have hw := hc.solve M hM p
  refine ⟨c.solve M p, hw, ?_⟩
  set w := c.solve M p
  have hdet : IsUnit L.det := by
    rw [isUnit_iff_ne_zero]
    intro h
    have := hM.det_pos
    rw [← hL, det_mul, h, zero_mul] at this
    exact lt_irrefl _ this
  have e : Lᵀ *ᵥ w = c.lsolve M p := by
    have h1 : L *ᵥ (Lᵀ *ᵥ w) = L *ᵥ c.lsolve M p := by rw [mulVec_mulVec, hL, hw, hq]
    have h2 := congrArg (fun v => L⁻¹ *ᵥ v) h1
    simpa only [mulVec_mulVec, ← Matrix.mul_assoc, nonsing_inv_mul _ hdet, one_mulVec, Matrix.one_mul] using h2
  rw [← e]
  conv_lhs => rw [← hw, ← hL, ← mulVec_mulVec, dotProduct_mulVec, ← mulVec_transpose]

theorem pass_long (hc : Exact c) {B : Matrix (Fin n) (Fin n) ℝ} {g : Fin n → ℝ} {rad lam lam' : ℝ} (hrad : 0 < rad) (hM : (shifted B lam).PosDef)
    (hM' : (shifted B lam').PosDef) (h : pass c B g rad lam = some lam') : rad ≤ norm (c.solve (shifted B lam') (-g)) := by
  unfold pass at h
  rw [if_pos ((hc.ok _ (posdef_symm hM)).2 hM)] at h
  dsimp only at h
  obtain ⟨w, hw, hwq⟩ := lsolve_dot hc hM (c.solve (shifted B lam) (-g))
  rw [← hwq] at h
  by_cases h0 : w ⬝ᵥ c.solve (shifted B lam) (-g) = 0 ∨ rad = 0
  · rw [if_pos h0] at h; cases h
  rw [if_neg h0, Option.some.injEq] at h
  have hpos : 0 < w ⬝ᵥ c.solve (shifted B lam) (-g) := by
    refine lt_of_le_of_ne ?_ fun h => h0 (Or.inl h.symm)
    rw [hwq]; exact dot_nonneg _
  exact newton_long hM hM' (hc.solve _ hM _) (hc.solve _ hM' _) hw hpos hrad h.symm

theorem passes_long (hc : Exact c) {B : Matrix (Fin n) (Fin n) ℝ} {g : Fin n → ℝ} {rad : ℝ} (hrad : 0 < rad) :
    ∀ (k : ℕ) (lam lam' : ℝ), AllOk c B g rad (k + 1) lam → passes c B g rad (k + 1) lam = some lam' → rad ≤ norm (c.solve (shifted B lam') (-g)) := by
  intro k
  induction k with
  | zero =>
    intro lam lam' hok h
    unfold passes at h
    cases h1 : pass c B g rad lam with
    | none => rw [h1] at h; cases h
    | some l1 =>
      rw [h1] at h
      obtain rfl : l1 = lam' := by simpa [passes] using h
      exact pass_long hc hrad hok.1 (hok.2 _ h1) h1
  | succ k ih =>
    intro lam lam' hok h
    unfold passes at h
    cases h1 : pass c B g rad lam with
    | none => rw [h1] at h; cases h
    | some l1 =>
      rw [h1] at h
      exact ih l1 lam' (hok.2 _ h1) h

/-- **C234 (negative). The radius is a lower bound.** If all factorisations of an iteration succeed, the step is at least as long as the trust region
radius, although the radius is meant to limit it. -/
theorem tr_step_long (hc : Exact c) {B : Matrix (Fin n) (Fin n) ℝ} {g p : Fin n → ℝ} {rad : ℝ} (hrad : 0 < rad) (hok : AllOk c B g rad 3 (1 / 10))
    (h : trialStep c B g rad = some p) : rad ≤ norm p := by
  unfold trialStep at h
  rw [Option.map_eq_some_iff] at h
  obtain ⟨lam, h1, rfl⟩ := h
  exact passes_long hc hrad 2 _ _ hok h1

/-- An iteration in which all factorisations succeed. -/
def SoundAt (c : Llt n) (prob : Objective n) (s : State n) : Prop := AllOk c (prob.hess s.x) (prob.grad s.x) s.rad 3 (1 / 10)

/-- On a quadratic cost the predicted and the actual reduction agree. -/
theorem iter_quadratic {prob : Objective n} (hq : Quadratic prob) {s : State n} {p : Fin n → ℝ} (hp : trialStep c (prob.hess s.x) (prob.grad s.x) s.rad = some p)
    (hpred : -(prob.grad s.x ⬝ᵥ p + 1 / 2 * (p ⬝ᵥ prob.hess s.x *ᵥ p)) ≠ 0) : iter c prob s = some ⟨s.x + p, newRadius 1 p s.rad⟩ := by
  obtain ⟨H, h0, c0, hH, hf, hg, hh⟩ := hq
  unfold iter
  rw [hp, Option.bind_some]
  dsimp only
  have hared : prob.f s.x - prob.f (s.x + p) = -(prob.grad s.x ⬝ᵥ p + 1 / 2 * (p ⬝ᵥ prob.hess s.x *ᵥ p)) := by
    rw [hf, hf, hg, hh, mulVec_add, dotProduct_add, add_dotProduct, add_dotProduct, dotProduct_add, add_dotProduct, swap hH s.x p,
      dotProduct_comm p (H *ᵥ s.x)]
    ring
  rw [if_neg hpred, hared, div_self hpred, if_pos zero_lt_one]

/-- **C234 (negative). Quadratic costs.** Every step is accepted, also one that increases the cost, the point moves by at least the radius, and the radius
is doubled up to 1000. -/
theorem tr_quadratic (hc : Exact c) {prob : Objective n} (hq : Quadratic prob) {s s' : State n} (hrad : 0 < s.rad) (hok : SoundAt c prob s)
    (h : iter c prob s = some s') : s.rad ≤ norm (s'.x - s.x) ∧ s'.rad = min (2 * s.rad) 1000 := by
  have h' := h
  unfold iter at h'
  rw [Option.bind_eq_some_iff] at h'
  obtain ⟨p, hp, h'⟩ := h'
  have hlong := tr_step_long hc hrad hok hp
  dsimp only at h'
  by_cases hpred : -(prob.grad s.x ⬝ᵥ p + 1 / 2 * (p ⬝ᵥ prob.hess s.x *ᵥ p)) = 0
  · rw [if_pos hpred] at h'; cases h'
  rw [iter_quadratic hq hp hpred, Option.some.injEq] at h
  subst h
  constructor
  · show s.rad ≤ norm (s.x + p - s.x)
    rwa [add_sub_cancel_left]
  · show newRadius 1 p s.rad = _
    unfold newRadius
    rw [if_neg (by norm_num), if_pos (by norm_num), if_neg]
    rw [not_lt]
    linarith

/-- `k` iterations lead from the first to the second state, and all factorisations on the way succeed. -/
inductive Iterates (c : Llt n) (prob : Objective n) (s : State n) : ℕ → State n → Prop
  | start : Iterates c prob s 0 s
  | step {k : ℕ} {a b : State n} : Iterates c prob s k a → SoundAt c prob a → iter c prob a = some b → Iterates c prob s (k + 1) b

/-- **C234 (negative). No convergence.** On a quadratic cost the iteration number `k` moves the point by at least `min (2^k/10) 1000`. -/
theorem tr_never_settles (hc : Exact c) {prob : Objective n} (hq : Quadratic prob) {x0 : Fin n → ℝ} {k : ℕ} {s : State n}
    (h : Iterates c prob ⟨x0, 1 / 10⟩ k s) : s.rad = min (2 ^ k / 10) 1000 ∧
      ∀ s', SoundAt c prob s → iter c prob s = some s' → min (2 ^ k / 10) 1000 ≤ norm (s'.x - s.x) := by
  have hr : s.rad = min (2 ^ k / 10) 1000 := by
    induction h with
    | start => norm_num
    | @step k a b h1 h2 h3 ih =>
      have hpos : 0 < a.rad := by rw [ih]; exact lt_min (by positivity) (by norm_num)
      rw [(tr_quadratic hc hq hpos h2 h3).2, ih, pow_succ]
      rcases le_total ((2 : ℝ) ^ k / 10) 1000 with h | h
      · rw [min_eq_left h]; congr 1; ring
      · rw [min_eq_right h, min_eq_right (by norm_num), min_eq_right (by linarith)]
  refine ⟨hr, fun s' h1 h2 => ?_⟩
  have hpos : 0 < s.rad := by rw [hr]; exact lt_min (by positivity) (by norm_num)
  rw [← hr]
  exact (tr_quadratic hc hq hpos h1 h2).1

/-- **C234 (negative). The answer is not the point that was tested.** When the loop ends because the gradient is small at the point `a`, it
answers with the next point; on a quadratic cost this is at least a tenth away from `a`. -/
theorem tr_answer (hc : Exact c) {prob : Objective n} (hq : Quadratic prob) {x0 : Fin n → ℝ} {s' : State n} (h : run c prob x0 = some s')
    (hok : ∀ k a, Iterates c prob ⟨x0, 1 / 10⟩ k a → SoundAt c prob a) :
    ∃ k a, Iterates c prob ⟨x0, 1 / 10⟩ k a ∧ (k = 99 ∨ done prob a) ∧ min (2 ^ k / 10) 1000 ≤ norm (s'.x - a.x) := by
  have key : ∀ (m k : ℕ) (a : State n), k + m = 99 → Iterates c prob ⟨x0, 1 / 10⟩ k a → loop c prob (m + 1) a = some s' →
      ∃ k a, Iterates c prob ⟨x0, 1 / 10⟩ k a ∧ (k = 99 ∨ done prob a) ∧ min (2 ^ k / 10) 1000 ≤ norm (s'.x - a.x) := by
    intro m
    induction m with
    | zero =>
      intro k a hk ha hl
      unfold loop at hl
      rw [Option.bind_eq_some_iff] at hl
      obtain ⟨b, hb, hl⟩ := hl
      have : b = s' := by
        by_cases hd : done prob a
        · rw [if_pos hd] at hl; exact Option.some.inj hl
        · rw [if_neg hd] at hl; exact Option.some.inj hl
      subst this
      exact ⟨k, a, ha, Or.inl (by omega), (tr_never_settles hc hq ha).2 _ (hok _ _ ha) hb⟩
    | succ m ih =>
      intro k a hk ha hl
      unfold loop at hl
      rw [Option.bind_eq_some_iff] at hl
      obtain ⟨b, hb, hl⟩ := hl
      by_cases hd : done prob a
      · rw [if_pos hd] at hl
        obtain rfl := Option.some.inj hl
        exact ⟨k, a, ha, Or.inr hd, (tr_never_settles hc hq ha).2 _ (hok _ _ ha) hb⟩
      · rw [if_neg hd] at hl
        exact ih (k + 1) b (by omega) (.step ha (hok _ _ ha) hb) hl
  exact key 99 0 _ rfl .start h

theorem posdef_mono {B : Matrix (Fin n) (Fin n) ℝ} {a b : ℝ} (hab : a ≤ b) (h : (shifted B a).PosDef) : (shifted B b).PosDef := by
  have e : shifted B b = shifted B a + (b - a) • 1 := by unfold shifted; rw [sub_smul]; abel
  rw [e]
  exact h.add_posSemidef (PosSemidef.one.smul (sub_nonneg.2 hab))

theorem trial_indefinite (hc : Exact c) {B : Matrix (Fin n) (Fin n) ℝ} (hB : Bᵀ = B) (h : ¬(shifted B (4 / 5)).PosDef) (g : Fin n → ℝ) (rad : ℝ) :
    trialStep c B g rad = some (c.solve (shifted B (4 / 5)) (-g)) := by
  have hno : ∀ a : ℝ, a ≤ 4 / 5 → pass c B g rad a = some (a * 2) := fun a ha => by
    unfold pass
    have hs : (shifted B a)ᵀ = shifted B a := by unfold shifted; rw [transpose_add, transpose_smul, transpose_one, hB]
    rw [if_neg fun h1 => h (posdef_mono ha ((hc.ok _ hs).1 h1))]
  unfold trialStep passes passes passes passes
  rw [hno _ (by norm_num), Option.bind_some, hno _ (by norm_num), Option.bind_some, hno _ (by norm_num), Option.bind_some, Option.map_some]
  norm_num

open Classical in
/-- **C234 (negative). Negative curvature.** If the Hessian has an eigenvalue of -4/5 or below, all factorisations fail, the failure of the last one is
not noticed, and the step is whatever the failed decomposition answers: every vector is the step for some exact decomposition. -/
theorem tr_indefinite (hc : Exact c) {B : Matrix (Fin n) (Fin n) ℝ} (hB : Bᵀ = B) (h : ¬(B + (4 / 5 : ℝ) • (1 : Matrix (Fin n) (Fin n) ℝ)).PosDef)
    (g : Fin n → ℝ) (rad : ℝ) : trialStep c B g rad = some (c.solve (B + (4 / 5 : ℝ) • 1) (-g)) ∧
      ∀ v, ∃ c' : Llt n, Exact c' ∧ trialStep c' B g rad = some v := by
  refine ⟨trial_indefinite hc hB h g rad, fun v => ?_⟩
  let c' : Llt n := ⟨c.ok, fun M b => if M.PosDef then c.solve M b else v, c.lsolve⟩
  have hc' : Exact c' := ⟨hc.ok, fun M hM b => by
    show M *ᵥ (if M.PosDef then c.solve M b else v) = b
    rw [if_pos hM]; exact hc.solve M hM b, hc.lsolve⟩
  refine ⟨c', hc', ?_⟩
  rw [trial_indefinite hc' hB h]
  show some (if (shifted B (4 / 5)).PosDef then _ else v) = some v
  exact congrArg some (if_neg h)

/-! ### One variable -/

/-- The cost `b x²/2`. -/
noncomputable def parabola (b : ℝ) : Objective 1 := ⟨fun x => b / 2 * x 0 ^ 2, fun x => fun _ => b * x 0, fun _ => fun _ _ => b⟩

theorem parabola_quadratic (b : ℝ) : Quadratic (parabola b) := by
  refine ⟨fun _ _ => b, 0, 0, ?_, fun x => ?_, fun x => ?_, fun x => rfl⟩
  · ext i j; rfl
  · simp [parabola, dotProduct, mulVec]; ring
  · funext i; simp [parabola, dotProduct, mulVec]

theorem one_posdef {M : Matrix (Fin 1) (Fin 1) ℝ} : M.PosDef ↔ 0 < M 0 0 := by
  constructor
  · intro h
    have := h.diag_pos (i := 0)
    exact this
  · intro h
    refine Matrix.PosDef.of_dotProduct_mulVec_pos ?_ fun x hx => ?_
    · ext i j; rw [conjTranspose_apply, star_trivial, Subsingleton.elim i j]
    · have h0 : x 0 ≠ 0 := fun h0 => hx (by funext i; rw [Subsingleton.elim i 0, h0]; rfl)
      have : star x ⬝ᵥ M *ᵥ x = M 0 0 * x 0 ^ 2 := by simp [dotProduct, mulVec]; ring
      rw [this]; positivity

theorem one_norm (p : Fin 1 → ℝ) : norm p = |p 0| := by
  unfold norm
  rw [show p ⬝ᵥ p = p 0 ^ 2 by simp [dotProduct, sq], Real.sqrt_sq_eq_abs]

theorem one_mulVec0 (M : Matrix (Fin 1) (Fin 1) ℝ) (v : Fin 1 → ℝ) : (M *ᵥ v) 0 = M 0 0 * v 0 := by simp [mulVec, dotProduct]

theorem one_shifted (B : Matrix (Fin 1) (Fin 1) ℝ) (lam : ℝ) : shifted B lam 0 0 = B 0 0 + lam := by simp [shifted]

theorem one_solve {c : Llt 1} (hc : Exact c) {B : Matrix (Fin 1) (Fin 1) ℝ} {g : Fin 1 → ℝ} {lam : ℝ} (h : 0 < B 0 0 + lam) :
    c.solve (shifted B lam) (-g) 0 = -(g 0 / (B 0 0 + lam)) := by
  have h1 := congrFun (hc.solve (shifted B lam) (one_posdef.2 (by rwa [one_shifted])) (-g)) 0
  rw [one_mulVec0, one_shifted, Pi.neg_apply] at h1
  field_simp
  linarith

/-- In one variable one pass finds the step of the length of the radius. -/
theorem one_pass {c : Llt 1} (hc : Exact c) {B : Matrix (Fin 1) (Fin 1) ℝ} {g : Fin 1 → ℝ} {rad lam : ℝ} (hrad : 0 < rad) (hg : g 0 ≠ 0)
    (h : 0 < B 0 0 + lam) : pass c B g rad lam = some (|g 0| / rad - B 0 0) := by
  have hM : (shifted B lam).PosDef := one_posdef.2 (by rwa [one_shifted])
  unfold pass
  rw [if_pos ((hc.ok _ (posdef_symm hM)).2 hM)]
  dsimp only
  obtain ⟨w, hw, hwq⟩ := lsolve_dot hc hM (c.solve (shifted B lam) (-g))
  rw [← hwq]
  have hp := one_solve hc (g := g) h
  set p := c.solve (shifted B lam) (-g)
  have hw0 := congrFun hw 0
  rw [one_mulVec0, one_shifted] at hw0
  have hw1 : w 0 = p 0 / (B 0 0 + lam) := by field_simp; linarith
  have hwp : w ⬝ᵥ p = p 0 ^ 2 / (B 0 0 + lam) := by
    rw [show w ⬝ᵥ p = w 0 * p 0 by simp [dotProduct], hw1]; ring
  have hp0 : p 0 ≠ 0 := by rw [hp]; exact neg_ne_zero.2 (div_ne_zero hg h.ne')
  have hpp : p ⬝ᵥ p = p 0 ^ 2 := by simp [dotProduct, sq]
  rw [if_neg, hwp, hpp, one_norm]
  · have habs : |p 0| = |g 0| / (B 0 0 + lam) := by rw [hp, abs_neg, abs_div, abs_of_pos h]
    rw [show p 0 ^ 2 / (p 0 ^ 2 / (B 0 0 + lam)) = B 0 0 + lam by field_simp, habs]
    congr 1
    field_simp
    ring
  · rw [hwp]
    rintro (h1 | h1)
    · exact (div_ne_zero (pow_ne_zero 2 hp0) h.ne') h1
    · exact hrad.ne' h1

theorem one_sound {c : Llt 1} (hc : Exact c) {b : ℝ} (hb : 0 < b) {s : State 1} (hrad : 0 < s.rad) (hx : s.x 0 ≠ 0) : SoundAt c (parabola b) s := by
  have hg : (parabola b).grad s.x 0 ≠ 0 := mul_ne_zero hb.ne' hx
  have key : ∀ k lam, 0 < (parabola b).hess s.x 0 0 + lam → AllOk c ((parabola b).hess s.x) ((parabola b).grad s.x) s.rad k lam := by
    intro k
    induction k with
    | zero => intro lam h; exact one_posdef.2 (by rw [← one_shifted] at h; exact h)
    | succ k ih =>
      intro lam h
      refine ⟨one_posdef.2 (by rw [← one_shifted] at h; exact h), fun lam' h' => ih lam' ?_⟩
      rw [one_pass hc hrad hg h, Option.some.injEq] at h'
      rw [← h', add_sub_cancel]
      positivity
  exact key 3 _ (by show 0 < b + 1 / 10; positivity)

/-- **C234. What one iteration computes for `b x²/2`.** It moves the point towards 0 by exactly the radius, past 0 if the radius is larger than the
distance, and doubles the radius up to 1000. -/
theorem tr_parabola {c : Llt 1} (hc : Exact c) {b : ℝ} (hb : 0 < b) {x rad : ℝ} (hx : x ≠ 0) (hrad : 0 < rad) (hne : rad ≠ 2 * |x|) :
    iter c (parabola b) ⟨fun _ => x, rad⟩ = some ⟨fun _ => x - SignType.sign x * rad, min (2 * rad) 1000⟩ := by
  have hg : (parabola b).grad (fun _ => x) 0 ≠ 0 := mul_ne_zero hb.ne' hx
  have hB : (parabola b).hess (fun _ => x) 0 0 = b := rfl
  have hg0 : (parabola b).grad (fun _ => x) 0 = b * x := rfl
  have hx0 : 0 < |x| := abs_pos.2 hx
  have hsx : (SignType.sign x : ℝ) * |x| = x := sign_mul_abs x
  have hps : 0 < (parabola b).hess (fun _ => x) 0 0 + (|(parabola b).grad (fun _ => x) 0| / rad - (parabola b).hess (fun _ => x) 0 0) := by
    rw [add_sub_cancel]; positivity
  have hstep : trialStep c ((parabola b).hess fun _ => x) ((parabola b).grad fun _ => x) rad = some fun _ => -(SignType.sign x * rad) := by
    unfold trialStep passes passes passes passes
    rw [one_pass hc hrad hg (by rw [hB]; positivity), Option.bind_some, one_pass hc hrad hg hps, Option.bind_some, one_pass hc hrad hg hps,
      Option.bind_some, Option.map_some, Option.some.injEq]
    funext i
    rw [Subsingleton.elim i 0, one_solve hc hps, add_sub_cancel, hg0, abs_mul, abs_of_pos hb]
    congr 1
    conv_lhs => rw [← hsx]
    rw [abs_mul, abs_abs]
    have h1 : |(SignType.sign x : ℝ)| = 1 := by
      rcases lt_or_gt_of_ne hx with h | h
      · rw [sign_neg h]; norm_num
      · rw [sign_pos h]; norm_num
    rw [h1]
    field_simp
  have hsq : (SignType.sign x : ℝ) ^ 2 = 1 := by
    rcases lt_or_gt_of_ne hx with h | h
    · rw [sign_neg h]; norm_num
    · rw [sign_pos h]; norm_num
  have hsx' : x * SignType.sign x = |x| := by rw [mul_comm, sign_mul_self]
  have hpred : -((parabola b).grad (fun _ => x) ⬝ᵥ (fun _ => -(SignType.sign x * rad)) + 1 / 2 * ((fun _ : Fin 1 => -(SignType.sign x * rad)) ⬝ᵥ
      (parabola b).hess (fun _ => x) *ᵥ fun _ => -(SignType.sign x * rad))) ≠ 0 := by
    have e : -((parabola b).grad (fun _ => x) ⬝ᵥ (fun _ => -(SignType.sign x * rad)) + 1 / 2 * ((fun _ : Fin 1 => -(SignType.sign x * rad)) ⬝ᵥ
        (parabola b).hess (fun _ => x) *ᵥ fun _ => -(SignType.sign x * rad))) = b * rad / 2 * (2 * |x| - rad) := by
      simp [parabola, dotProduct, mulVec]
      linear_combination (-b * rad ^ 2 / 2) * hsq + b * rad * hsx'
    rw [e]
    exact mul_ne_zero (by positivity) fun h => hne (by linarith)
  rw [iter_quadratic (parabola_quadratic b) (s := ⟨fun _ => x, rad⟩) hstep hpred]
  congr 2
  unfold newRadius
  rw [if_neg (by norm_num), if_pos (by norm_num), if_neg]
  rw [one_norm, abs_neg, abs_mul, abs_of_pos hrad, not_lt]
  have h1 : |(SignType.sign x : ℝ)| = 1 := by
    rcases lt_or_gt_of_ne hx with h | h
    · rw [sign_neg h]; norm_num
    · rw [sign_pos h]; norm_num
  rw [h1]
  linarith

theorem sgn_neg {x : ℝ} (h : x < 0) : ((SignType.sign x : SignType) : ℝ) = -1 := by rw [sign_neg h]; norm_num

theorem sgn_pos {x : ℝ} (h : 0 < x) : ((SignType.sign x : SignType) : ℝ) = 1 := by rw [sign_pos h]; norm_num

/-- **C234 (negative). The cost can grow.** Closer to the minimum than half the radius, the step is accepted although it increases the cost. -/
theorem tr_ascends {c : Llt 1} (hc : Exact c) {b : ℝ} (hb : 0 < b) {x rad : ℝ} (hx : x ≠ 0) (hnear : 2 * |x| < rad) :
    ∃ s', iter c (parabola b) ⟨fun _ => x, rad⟩ = some s' ∧ (parabola b).f (fun _ => x) < (parabola b).f s'.x := by
  have hx0 : 0 < |x| := abs_pos.2 hx
  refine ⟨_, tr_parabola hc hb hx (by linarith) hnear.ne', ?_⟩
  show b / 2 * x ^ 2 < b / 2 * (x - SignType.sign x * rad) ^ 2
  have h : x ^ 2 < (x - SignType.sign x * rad) ^ 2 := by
    rcases lt_or_gt_of_ne hx with h | h
    · rw [sgn_neg h]; rw [abs_of_neg h] at hnear; nlinarith
    · rw [sgn_pos h]; rw [abs_of_pos h] at hnear; nlinarith
  nlinarith

/-- **C234 (negative). A cycle.** With the largest radius, the iteration from a point at a distance of less than 1000 from the minimum is back at this
point after two iterations. -/
theorem tr_cycle {c : Llt 1} (hc : Exact c) {b : ℝ} (hb : 0 < b) {x : ℝ} (hx : x ≠ 0) (hnear : |x| < 1000) (hne : |x| ≠ 500) :
    (iter c (parabola b) ⟨fun _ => x, 1000⟩).bind (iter c (parabola b)) = some ⟨fun _ => x, 1000⟩ := by
  rw [tr_parabola hc hb hx (by norm_num) fun h => hne (by linarith), Option.bind_some, show min (2 * (1000 : ℝ)) 1000 = 1000 by norm_num]
  rcases lt_or_gt_of_ne hx with h | h
  · rw [abs_of_neg h] at hnear hne
    have h1 : 0 < x - ((SignType.sign x : SignType) : ℝ) * 1000 := by rw [sgn_neg h]; linarith
    rw [tr_parabola hc hb h1.ne' (by norm_num) (by rw [abs_of_pos h1, sgn_neg h]; intro h2; exact hne (by linarith)), sgn_pos h1, sgn_neg h]
    norm_num
  · rw [abs_of_pos h] at hnear hne
    have h1 : x - ((SignType.sign x : SignType) : ℝ) * 1000 < 0 := by rw [sgn_pos h]; linarith
    rw [tr_parabola hc hb h1.ne (by norm_num) (by rw [abs_of_neg h1, sgn_pos h]; intro h2; exact hne (by linarith)), sgn_neg h1, sgn_pos h]
    norm_num

/-! ### The hypotheses are met -/

open Classical in
/-- The Cholesky decomposition of a number. -/
noncomputable def numberLlt : Llt 1 :=
  ⟨fun M => decide (0 < M 0 0), fun M v => fun _ => v 0 / M 0 0, fun M v => fun _ => v 0 / Real.sqrt (M 0 0)⟩

theorem numberLlt_exact : Exact numberLlt := by
  refine ⟨fun M _ => ?_, fun M hM b => ?_, fun M hM b => ⟨Real.sqrt (M 0 0) • 1, ?_, ?_⟩⟩
  · rw [one_posdef]; exact decide_eq_true_iff
  · have h := one_posdef.1 hM
    funext i
    rw [Subsingleton.elim i 0, one_mulVec0]
    show M 0 0 * (b 0 / M 0 0) = b 0
    field_simp
  · have h := one_posdef.1 hM
    ext i j
    rw [Subsingleton.elim i 0, Subsingleton.elim j 0]
    simp [Real.mul_self_sqrt h.le]
  · have h := Real.sqrt_pos.2 (one_posdef.1 hM)
    funext i
    rw [Subsingleton.elim i 0, smul_mulVec, one_mulVec]
    show Real.sqrt (M 0 0) * (b 0 / Real.sqrt (M 0 0)) = b 0
    field_simp

/-- From 1/50 the first iteration goes to -4/50 and is accepted. -/
example : iter numberLlt (parabola 2) ⟨fun _ => 1 / 50, 1 / 10⟩ = some ⟨fun _ => -4 / 50, 1 / 5⟩ := by
  rw [tr_parabola numberLlt_exact (by norm_num) (by norm_num) (by norm_num) (by rw [abs_of_pos (by norm_num)]; norm_num), sign_pos (by norm_num)]
  norm_num

/-- The cost `-x²/2` has the curvature -1. -/
example : ¬((parabola (-1)).hess 0 + (4 / 5 : ℝ) • (1 : Matrix (Fin 1) (Fin 1) ℝ)).PosDef := by
  rw [one_posdef, show ((parabola (-1)).hess 0 + (4 / 5 : ℝ) • (1 : Matrix (Fin 1) (Fin 1) ℝ)) 0 0 = -1 + 4 / 5 from one_shifted _ _]
  norm_num

/-- Two iterations from 1/50. -/
example : ∃ s, Iterates numberLlt (parabola 2) ⟨fun _ => 1 / 50, 1 / 10⟩ 2 s := by
  have e1 := tr_parabola numberLlt_exact (b := 2) (x := 1 / 50) (rad := 1 / 10) (by norm_num) (by norm_num) (by norm_num)
    (by rw [abs_of_pos (by norm_num)]; norm_num)
  rw [sign_pos (by norm_num), show ((1 / 50 : ℝ) - ((1 : SignType) : ℝ) * (1 / 10)) = -4 / 50 by norm_num, show min (2 * (1 / 10 : ℝ)) 1000 = 1 / 5 by norm_num] at e1
  have e2 := tr_parabola numberLlt_exact (b := 2) (x := -4 / 50) (rad := 1 / 5) (by norm_num) (by norm_num) (by norm_num)
    (by rw [abs_of_neg (by norm_num)]; norm_num)
  exact ⟨_, .step (.step .start (one_sound numberLlt_exact (by norm_num) (by norm_num) (by norm_num)) e1)
    (one_sound numberLlt_exact (by norm_num) (by norm_num) (by norm_num)) e2⟩

/-- The points are a third plus a multiple of a tenth, the radius is a positive multiple of a tenth. -/
def Thirds (s : State 1) : Prop := ∃ (m : ℤ) (j : ℕ), 0 < j ∧ s = ⟨fun _ => 1 / 3 + (m : ℝ) / 10, (j : ℝ) / 10⟩

theorem thirds_iter {s : State 1} (h : Thirds s) : SoundAt numberLlt (parabola 2) s ∧ ∃ s', iter numberLlt (parabola 2) s = some s' ∧ Thirds s' := by
  obtain ⟨m, j, hj, rfl⟩ := h
  have hj' : (0 : ℝ) < j := Nat.cast_pos.2 hj
  have hx : (1 / 3 + (m : ℝ) / 10) ≠ 0 := by
    intro h
    have h1 : (10 : ℝ) + 3 * m = 0 := by linarith
    have h2 : (10 : ℤ) + 3 * m = 0 := by exact_mod_cast h1
    omega
  have hr : (0 : ℝ) < j / 10 := by positivity
  have hne : (j : ℝ) / 10 ≠ 2 * |1 / 3 + (m : ℝ) / 10| := by
    intro h
    rcases abs_cases (1 / 3 + (m : ℝ) / 10) with ⟨h1, -⟩ | ⟨h1, -⟩
    · rw [h1] at h
      have h2 : (3 * j : ℝ) = 20 + 6 * m := by linarith
      have h3 : (3 * j : ℤ) = 20 + 6 * m := by exact_mod_cast h2
      omega
    · rw [h1] at h
      have h2 : (3 * j : ℝ) = -(20 + 6 * m) := by linarith
      have h3 : (3 * j : ℤ) = -(20 + 6 * m) := by exact_mod_cast h2
      omega
  refine ⟨one_sound numberLlt_exact (by norm_num) hr hx, _, tr_parabola numberLlt_exact (by norm_num) hx hr hne, ?_⟩
  have hmin : min (2 * ((j : ℝ) / 10)) 1000 = ((min (2 * j) 10000 : ℕ) : ℝ) / 10 := by
    push_cast
    rcases le_total (2 * (j : ℝ)) 10000 with h | h
    · rw [min_eq_left h, min_eq_left (by linarith)]; ring
    · rw [min_eq_right h, min_eq_right (by linarith)]; norm_num
  rcases lt_or_gt_of_ne hx with h | h
  · refine ⟨m + j, min (2 * j) 10000, by omega, ?_⟩
    rw [sgn_neg h, hmin]
    congr 1
    funext _
    push_cast
    ring
  · refine ⟨m - j, min (2 * j) 10000, by omega, ?_⟩
    rw [sgn_pos h, hmin]
    congr 1
    funext _
    push_cast
    ring

theorem thirds_loop (k : ℕ) : ∀ s, Thirds s → ∃ s', loop numberLlt (parabola 2) k s = some s' := by
  induction k with
  | zero => intro s _; exact ⟨s, rfl⟩
  | succ k ih =>
    intro s hs
    obtain ⟨-, s1, h1, h2⟩ := thirds_iter hs
    unfold loop
    rw [h1, Option.bind_some]
    by_cases hd : done (parabola 2) s
    · rw [if_pos hd]; exact ⟨_, rfl⟩
    · rw [if_neg hd]; exact ih s1 h2

/-- The run from a third for the cost `x²` meets the hypotheses of `tr_answer`. -/
example : (∃ s', run numberLlt (parabola 2) (fun _ => 1 / 3) = some s') ∧
    ∀ k a, Iterates numberLlt (parabola 2) ⟨fun _ => 1 / 3, 1 / 10⟩ k a → SoundAt numberLlt (parabola 2) a := by
  have h0 : Thirds ⟨fun _ => 1 / 3, 1 / 10⟩ := ⟨0, 1, one_pos, by norm_num⟩
  refine ⟨thirds_loop 100 _ h0, fun k a h => (thirds_iter ?_).1⟩
  induction h with
  | start => exact h0
  | step h1 h2 h3 ih =>
    obtain ⟨-, s1, h4, h5⟩ := thirds_iter ih
    rw [h3, Option.some.injEq] at h4
    rwa [h4]

end PolyMPC.TrustRegion
