import Verif.Model.Psarc
import Verif.Spec.GenericOcp
import Mathlib.Analysis.Calculus.Deriv.Mul
import Mathlib.Analysis.Calculus.Deriv.Add
import Mathlib.Tactic.FieldSimp
import Mathlib.Tactic.LinearCombination

/-! # Continuation along a homotopy (C159-C161) -/

namespace PolyMPC.Psarc
open Spec

variable {s : Sys} {w : Tools} {x0 z : ℕ → ℝ}

/-- A point that satisfies equations and bounds of the program given to the corrector. -/
def Feasible (s : Sys) (x0 : ℕ → ℝ) (a : Args) (z : ℕ → ℝ) : Prop :=
  (∀ i < s.n, homotopy s x0 z i = 0) ∧ ∀ r ≤ s.n, within (lbx s a r) (ubx s a r) (z r)

theorem bounds_iff (hn : 0 ≤ reSize s) (a : Args) (z : ℕ → ℝ) :
    (∀ r ≤ s.n, within (lbx s a r) (ubx s a r) (z r)) ↔ (∀ k < 501, 1 ≤ z (13 * k)) ∧ ∀ c, a.lam = some c → z s.n = c := by
  have hs : 6512 ≤ s.n := by unfold reSize at hn; omega
  constructor
  · intro h
    refine ⟨fun k hk => ?_, fun c hc => ?_⟩
    · have := (h (13 * k) (by omega)).1
      refine this 1 ?_
      unfold lbx lower
      rw [if_neg (by omega), if_pos ⟨by omega, by omega⟩]
    · have := h s.n (le_refl _)
      unfold lbx ubx at this
      rw [if_pos rfl, if_pos rfl] at this
      exact le_antisymm (this.2 c hc) (this.1 c hc)
  · rintro ⟨h1, h2⟩ r hr
    unfold lbx ubx lower
    by_cases hrn : r = s.n
    · rw [if_pos hrn, if_pos hrn, hrn]
      exact ⟨fun c hc => (h2 c hc).ge, fun c hc => (h2 c hc).le⟩
    · rw [if_neg hrn, if_neg hrn]
      refine ⟨fun c hc => ?_, fun c hc => by cases hc⟩
      by_cases h : r < 501 * 13 ∧ r % 13 = 0
      · rw [if_pos h] at hc
        cases hc
        have := h1 (r / 13) (by omega)
        rwa [show 13 * (r / 13) = r by omega] at this
      · rw [if_neg h] at hc; cases hc

/-- **C159.** With `lambda` fixed at 1 the only candidate is the guess, with `lambda` fixed at 0 the candidates are the roots of the system; both
only if 501 entries, those with index a multiple of 13, are at least 1. -/
theorem ends_of_path (hn : 0 ≤ reSize s) (a : Args) (z : ℕ → ℝ) :
    (a.lam = some 1 → (Feasible s x0 a z ↔ z s.n = 1 ∧ (∀ i < s.n, z i = x0 i) ∧ ∀ k < 501, 1 ≤ x0 (13 * k))) ∧
    (a.lam = some 0 → (Feasible s x0 a z ↔ z s.n = 0 ∧ (∀ i < s.n, s.F z i = 0) ∧ ∀ k < 501, 1 ≤ z (13 * k))) := by
  have hs : 6512 ≤ s.n := by unfold reSize at hn; omega
  unfold Feasible
  rw [bounds_iff hn]
  unfold homotopy
  constructor
  · intro ha
    rw [ha]
    constructor
    · rintro ⟨h1, h2, h3⟩
      have hz := h3 1 rfl
      have hx : ∀ i < s.n, z i = x0 i := fun i hi => by
        have := h1 i hi
        rw [hz] at this
        linarith
      exact ⟨hz, hx, fun k hk => by rw [← hx _ (by omega)]; exact h2 k hk⟩
    · rintro ⟨h1, h2, h3⟩
      refine ⟨fun i hi => by rw [h1, h2 i hi]; ring, fun k hk => by rw [h2 _ (by omega)]; exact h3 k hk, fun c hc => ?_⟩
      cases hc; exact h1
  · intro ha
    rw [ha]
    constructor
    · rintro ⟨h1, h2, h3⟩
      have hz := h3 0 rfl
      refine ⟨hz, fun i hi => ?_, h2⟩
      have := h1 i hi
      rw [hz] at this
      linarith
    · rintro ⟨h1, h2, h3⟩
      refine ⟨fun i hi => by rw [h1, h2 i hi]; ring, h3, fun c hc => ?_⟩
      cases hc; exact h1

/-- **C159 (negative).** The constructor throws for every system with less than 6512 unknowns; for larger ones the first program has no
feasible point if one of 501 entries of the guess is below 1. -/
theorem first_program :
    (s.n < 6512 → ∀ k, construct s w x0 k = .fail) ∧
    (6512 ≤ s.n → (∃ k < 501, x0 (13 * k) < 1) → ∀ a z, a.lam = some 1 → ¬ Feasible s x0 a z) := by
  refine ⟨fun h k => ?_, fun h hx a z ha hf => ?_⟩
  · unfold construct start
    rw [if_pos (by unfold reSize; omega)]
  · obtain ⟨k, hk, hlt⟩ := hx
    have := (((ends_of_path (s := s) (x0 := x0) (by unfold reSize; omega) a z).1 ha).1 hf).2.2 k hk
    linarith

/-! ### C160: where the loop ends -/

/-- A corrector that returns a feasible point if there is one. -/
def Good (s : Sys) (x0 : ℕ → ℝ) (w : Tools) : Prop := ∀ a, (∃ z, Feasible s x0 a z) → Feasible s x0 a (w.corrector a).x

theorem feasible_congr {a b : Args} (h : a.lam = b.lam) : Feasible s x0 a z ↔ Feasible s x0 b z := by
  unfold Feasible lbx ubx; rw [h]

theorem feasible_free (hn : 0 ≤ reSize s) {a b : Args} (hb : b.lam = none) (h : Feasible s x0 a z) : Feasible s x0 b z := by
  refine ⟨h.1, ?_⟩
  rw [bounds_iff hn]
  refine ⟨((bounds_iff hn a z).1 h.2).1, fun c hc => ?_⟩
  rw [hb] at hc; cases hc

/-- The states of the loop: the multiplier `lambda` is the last entry of the point, and it is not fixed while positive. -/
structure Inv (s : Sys) (x0 : ℕ → ℝ) (st : State) : Prop where
  free : 0 < st.lambda → st.lam = none
  root : st.lambda ≤ 0 → st.x s.n = 0 ∧ (∀ i < s.n, s.F st.x i = 0) ∧ ∀ k < 501, 1 ≤ st.x (13 * k)

theorem step_inv (hn : 0 ≤ reSize s) (hw : Good s x0 w) (hroot : ∃ a z, a.lam = some 0 ∧ Feasible s x0 a z) {st st' : State} (hp : 0 < st.lambda) (hi : Inv s x0 st)
    (h : step s w x0 st = some st') : Inv s x0 st' := by
  obtain ⟨a0, z0, ha0, hz0⟩ := hroot
  unfold step at h
  obtain ⟨r, -, rfl⟩ := Option.map_eq_some_iff.1 h
  have hfree := hi.free hp
  generalize direction s.n st.t (rescale s.n r) = t
  suffices hc : Inv s x0 (correct s w st t) from ⟨hc.1, hc.2⟩
  unfold correct
  dsimp only
  by_cases hneg : (w.corrector ⟨st.lam, fun i => st.x i + 1 * t i, st.sol.x, some (st.sol.lamG, st.sol.lamX)⟩).x s.n < 0
  · rw [if_pos hneg]
    have hf := hw ⟨some 0, fun i => st.x i + 1 * t i, st.sol.x, some (st.sol.lamG, st.sol.lamX)⟩ ⟨z0, (feasible_congr ha0).1 hz0⟩
    have hr := ((ends_of_path (x0 := x0) hn _ _).2 rfl).1 hf
    refine ⟨fun hpos => ?_, fun _ => hr⟩
    exact absurd hr.1 hpos.ne'
  · rw [if_neg hneg]
    refine ⟨fun _ => hfree, fun hle => ?_⟩
    have hf := hw ⟨st.lam, fun i => st.x i + 1 * t i, st.sol.x, some (st.sol.lamG, st.sol.lamX)⟩ ⟨z0, feasible_free hn hfree hz0⟩
    have h0 : (w.corrector ⟨st.lam, fun i => st.x i + 1 * t i, st.sol.x, some (st.sol.lamG, st.sol.lamX)⟩).x s.n = 0 := le_antisymm hle (not_lt.1 hneg)
    refine ((ends_of_path (x0 := x0) hn ⟨some 0, x0, x0, none⟩ _).2 rfl).1 ⟨hf.1, ?_⟩
    rw [bounds_iff hn]
    refine ⟨((bounds_iff hn _ _).1 hf.2).1, fun c hc => ?_⟩
    cases hc; exact h0

theorem loop_inv (hn : 0 ≤ reSize s) (hw : Good s x0 w) (hroot : ∃ a z, a.lam = some 0 ∧ Feasible s x0 a z) (k : ℕ) :
    ∀ {st st' : State}, Inv s x0 st → loop s w x0 k st = .ended st' → st'.broken = false → st'.lambda ≤ 0 ∧ Inv s x0 st' := by
  induction k with
  | zero =>
    intro st st' hi h hb
    unfold loop at h
    by_cases hc : st.lambda > 0 ∧ st.broken = false
    · rw [if_pos hc] at h; cases h
    · rw [if_neg hc] at h; cases h
      exact ⟨not_lt.1 fun hl => hc ⟨hl, hb⟩, hi⟩
  | succ k ih =>
    intro st st' hi h hb
    unfold loop at h
    by_cases hc : st.lambda > 0 ∧ st.broken = false
    · rw [if_pos hc] at h
      cases hs : step s w x0 st with
      | none => rw [hs] at h; cases h
      | some st2 =>
        rw [hs] at h
        exact ih (step_inv hn hw hroot hc.1 hi hs) h hb
    · rw [if_neg hc] at h; cases h
      exact ⟨not_lt.1 fun hl => hc ⟨hl, hb⟩, hi⟩

/-- **C160.** If the system has a root that satisfies the bounds, the corrector returns feasible points and the loop ends otherwise than by `break`, then
the last point is such a root. -/
theorem ends_at_root (hw : Good s x0 w) (hroot : ∃ y : ℕ → ℝ, y s.n = 0 ∧ (∀ i < s.n, s.F y i = 0) ∧ ∀ k < 501, 1 ≤ y (13 * k)) {k : ℕ} {st : State}
    (h : construct s w x0 k = .ended st) (hb : st.broken = false) :
    st.x s.n = 0 ∧ (∀ i < s.n, s.F st.x i = 0) ∧ ∀ k < 501, 1 ≤ st.x (13 * k) := by
  unfold construct start at h
  by_cases hn : reSize s < 0
  · rw [if_pos hn] at h; cases h
  · rw [if_neg hn] at h
    have hn := not_lt.1 hn
    obtain ⟨y, hy⟩ := hroot
    have hroot : ∃ a z, a.lam = some 0 ∧ Feasible s x0 a z := ⟨⟨some 0, y, y, none⟩, y, rfl, ((ends_of_path hn _ _).2 rfl).2 hy⟩
    have hi : Inv s x0 ⟨(w.corrector ⟨some 1, fun i => if i = s.n then 1 else x0 i, fun i => if i = s.n then 1 else x0 i, none⟩).x,
        w.corrector ⟨some 1, fun i => if i = s.n then 1 else x0 i, fun i => if i = s.n then 1 else x0 i, none⟩, none, none, 1, false⟩ :=
      ⟨fun _ => rfl, fun h => absurd h (by norm_num)⟩
    obtain ⟨h1, h2⟩ := loop_inv hn hw hroot k hi h hb
    exact h2.root h1

/-! ### The step direction -/

theorem normInf_nonneg (n : ℕ) (r : ℕ → ℝ) : 0 ≤ normInf n r := by
  induction n with
  | zero => exact le_refl _
  | succ n ih => exact ih.trans (le_max_left _ _)

theorem le_normInf {n : ℕ} (r : ℕ → ℝ) {i : ℕ} (hi : i < n) : |r i| ≤ normInf n r := by
  induction n with
  | zero => omega
  | succ n ih =>
    by_cases h : i < n
    · exact (ih h).trans (le_max_left _ _)
    · obtain rfl : i = n := by omega
      exact le_max_right _ _

theorem dot_self_nonneg (n : ℕ) (r : ℕ → ℝ) : 0 ≤ dot n r r := Finset.sum_nonneg fun _ _ => mul_self_nonneg _

theorem tau_unit (n : ℕ) (r : ℕ → ℝ) : dot (n + 1) (tau n r) (tau n r) = 1 := by
  have hp : 0 < 1 + dot n r r := by have := dot_self_nonneg n r; linarith
  unfold dot
  rw [Finset.sum_range_succ]
  have e : ∀ i ∈ Finset.range n, tau n r i * tau n r i = (1 / √(1 + dot n r r)) ^ 2 * (r i * r i) := by
    intro i hi
    unfold tau
    rw [if_pos (Finset.mem_range.1 hi)]; ring
  rw [Finset.sum_congr rfl e, ← Finset.mul_sum]
  unfold tau
  rw [if_neg (lt_irrefl n), if_pos rfl]
  change (1 / √(1 + dot n r r)) ^ 2 * dot n r r + _ = 1
  have hq : (1 / √(1 + dot n r r)) ^ 2 = 1 / (1 + dot n r r) := by rw [div_pow, Real.sq_sqrt hp.le, one_pow]
  have : 1 / √(1 + dot n r r) * (1 / √(1 + dot n r r)) = 1 / (1 + dot n r r) := by rw [← hq]; ring
  rw [this, hq]
  field_simp
  ring

theorem direction_cases (n : ℕ) (t : Option (ℕ → ℝ)) (r : ℕ → ℝ) :
    ∃ ε : ℝ, ε * ε = 1 ∧ (∀ i, direction n t r i = ε * tau n r i) ∧ (t = none → ε = -1) ∧ ∀ t', t = some t' → 0 ≤ ε * dot (n + 1) t' (tau n r) := by
  unfold direction
  cases t with
  | none => exact ⟨-1, by norm_num, fun i => by ring, fun _ => rfl, fun t' h => by cases h⟩
  | some t =>
    dsimp only
    by_cases h : dot (n + 1) t (tau n r) ≥ 0
    · rw [if_pos h]
      refine ⟨1, by norm_num, fun i => by ring, fun h => (by cases h), fun t' ht => ?_⟩
      cases ht; rw [one_mul]; exact h
    · rw [if_neg h]
      refine ⟨-1, by norm_num, fun i => by ring, fun h => (by cases h), fun t' ht => ?_⟩
      cases ht; linarith [not_le.1 h]

/-- The system is differentiable in every direction, with the Jacobian given. -/
def Differentiable (s : Sys) : Prop :=
  ∀ z v : ℕ → ℝ, ∀ i < s.n, HasDerivAt (fun e => s.F (fun j => z j + e * v j) i) (∑ j ∈ Finset.range s.n, s.DF z i j * v j) 0

theorem homotopy_deriv (hd : Differentiable s) (x0 z v : ℕ → ℝ) {i : ℕ} (hi : i < s.n) :
    HasDerivAt (fun e => homotopy s x0 (fun j => z j + e * v j) i) (∑ j ∈ Finset.range s.n, jacX s z i j * v j + jacL s x0 z i * v s.n) 0 := by
  have hl : ∀ j, HasDerivAt (fun e : ℝ => z j + e * v j) (v j) 0 := fun j => by
    simpa using ((hasDerivAt_id (0 : ℝ)).mul_const (v j)).const_add (z j)
  have h := ((hl s.n).mul ((hl i).sub_const (x0 i))).add (((hl s.n).const_sub 1).mul (hd z v i hi))
  refine h.congr_deriv ?_
  have e : ∑ j ∈ Finset.range s.n, jacX s z i j * v j = z s.n * v i + (1 - z s.n) * ∑ j ∈ Finset.range s.n, s.DF z i j * v j := by
    have e1 : ∀ j ∈ Finset.range s.n, jacX s z i j * v j = (if i = j then z s.n * v j else 0) + (1 - z s.n) * (s.DF z i j * v j) := by
      intro j _
      unfold jacX
      split_ifs <;> ring
    rw [Finset.sum_congr rfl e1, Finset.sum_add_distrib, ← Finset.mul_sum, Finset.sum_ite_eq, if_pos (Finset.mem_range.2 hi)]
  rw [e]
  unfold jacL
  simp only [zero_mul, add_zero]
  ring

theorem rescale_eq (n : ℕ) (r : ℕ → ℝ) : ∃ f : ℝ, 0 < f ∧ f ≤ 1 ∧ (f = 1 ↔ normInf n r ≤ 20) ∧ rescale n r = fun i => f * r i := by
  unfold rescale
  by_cases h : normInf n r > 20
  · have hp : 0 < normInf n r := by linarith
    have hlt : 20 / normInf n r < 1 := (div_lt_one hp).2 h
    rw [if_pos h]
    exact ⟨_, div_pos (by norm_num) hp, hlt.le, ⟨fun e => absurd e hlt.ne, fun e => absurd h (not_lt.2 e)⟩, rfl⟩
  · rw [if_neg h]
    exact ⟨1, one_pos, le_refl _, ⟨fun _ => not_lt.1 h, fun _ => rfl⟩, by funext i; ring⟩

/-- The speed with which the homotopy changes along the direction chosen: zero if the solution of the linear system is not rescaled. -/
theorem direction_deriv (hd : Differentiable s) (x0 z : ℕ → ℝ) {r : ℕ → ℝ} (hr : ∀ i < s.n, ∑ j ∈ Finset.range s.n, jacX s z i j * r j = -jacL s x0 z i)
    (t : Option (ℕ → ℝ)) : ∃ c f : ℝ, c ≠ 0 ∧ (f = 1 ↔ normInf s.n r ≤ 20) ∧ ∀ i < s.n,
      HasDerivAt (fun e => homotopy s x0 (fun j => z j + e * direction s.n t (rescale s.n r) j) i) (c * (1 - f) * jacL s x0 z i) 0 := by
  obtain ⟨f, hf0, -, hf1, hfe⟩ := rescale_eq s.n r
  obtain ⟨ε, hε, hdir, -⟩ := direction_cases s.n t (rescale s.n r)
  have hp : 0 < 1 + dot s.n (rescale s.n r) (rescale s.n r) := by have := dot_self_nonneg s.n (rescale s.n r); linarith
  refine ⟨ε * (1 / √(1 + dot s.n (rescale s.n r) (rescale s.n r))), f, ?_, hf1, fun i hi => ?_⟩
  · refine mul_ne_zero (fun h => by rw [h] at hε; norm_num at hε) (one_div_ne_zero (Real.sqrt_pos.2 hp).ne')
  · refine (homotopy_deriv hd x0 z _ hi).congr_deriv ?_
    have e : ∀ j ∈ Finset.range s.n, jacX s z i j * direction s.n t (rescale s.n r) j
        = ε * (1 / √(1 + dot s.n (rescale s.n r) (rescale s.n r))) * f * (jacX s z i j * r j) := by
      intro j hj
      rw [hdir]
      unfold tau
      rw [if_pos (Finset.mem_range.1 hj), show rescale s.n r j = f * r j by rw [hfe]]
      ring
    rw [Finset.sum_congr rfl e, ← Finset.mul_sum, hr i hi, hdir]
    unfold tau
    rw [if_neg (lt_irrefl _), if_pos rfl]
    ring

/-- **C161.** If the solution of the linear system has no entry above 20, the step has unit length, is tangent to the path, does not turn back, and
the first one decreases `lambda`. -/
theorem step_tangent (hd : Differentiable s) (x0 z : ℕ → ℝ) {r : ℕ → ℝ} (hr : ∀ i < s.n, ∑ j ∈ Finset.range s.n, jacX s z i j * r j = -jacL s x0 z i)
    (hs : ∀ i < s.n, |r i| ≤ 20) (t : Option (ℕ → ℝ)) :
    (∀ i < s.n, HasDerivAt (fun e => homotopy s x0 (fun j => z j + e * direction s.n t (rescale s.n r) j) i) 0 0) ∧
    ∑ i ∈ Finset.range (s.n + 1), direction s.n t (rescale s.n r) i ^ 2 = 1 ∧
    (∀ t', t = some t' → 0 ≤ ∑ i ∈ Finset.range (s.n + 1), t' i * direction s.n t (rescale s.n r) i) ∧
    (t = none → direction s.n t (rescale s.n r) s.n < 0) := by
  have hnorm : normInf s.n r ≤ 20 := by
    have : ∀ m ≤ s.n, normInf m r ≤ 20 := by
      intro m
      induction m with
      | zero => intro _; unfold normInf; norm_num
      | succ m ih => intro hm; exact max_le (ih (by omega)) (hs m (by omega))
    exact this _ (le_refl _)
  obtain ⟨ε, hε, hdir, hnone, hsome⟩ := direction_cases s.n t (rescale s.n r)
  refine ⟨fun i hi => ?_, ?_, fun t' ht' => ?_, fun ht => ?_⟩
  · obtain ⟨c, f, -, hf, hder⟩ := direction_deriv hd x0 z hr t
    have := hder i hi
    rwa [hf.2 hnorm, sub_self, mul_zero, zero_mul] at this
  · have hu := tau_unit s.n (rescale s.n r)
    unfold dot at hu
    rw [← hu]
    refine Finset.sum_congr rfl fun i _ => ?_
    rw [hdir]
    linear_combination (tau s.n (rescale s.n r) i) ^ 2 * hε
  · have := hsome t' ht'
    unfold dot at this
    rw [Finset.mul_sum] at this
    refine this.trans (le_of_eq (Finset.sum_congr rfl fun i _ => ?_))
    rw [hdir]; ring
  · rw [hdir, hnone ht]
    unfold tau
    rw [if_neg (lt_irrefl _), if_pos rfl]
    have hp : 0 < 1 + dot s.n (rescale s.n r) (rescale s.n r) := by have := dot_self_nonneg s.n (rescale s.n r); linarith
    have := one_div_pos.2 (Real.sqrt_pos.2 hp)
    linarith

/-- **C161 (negative).** If an entry is above 20 the direction is not tangent to the path. -/
theorem rescaled_not_tangent (hd : Differentiable s) (x0 z : ℕ → ℝ) {r : ℕ → ℝ} (hr : ∀ i < s.n, ∑ j ∈ Finset.range s.n, jacX s z i j * r j = -jacL s x0 z i)
    (hs : ∃ i < s.n, 20 < |r i|) (t : Option (ℕ → ℝ)) {i : ℕ} (hi : i < s.n) (hl : z i - x0 i ≠ s.F z i) :
    ¬ HasDerivAt (fun e => homotopy s x0 (fun j => z j + e * direction s.n t (rescale s.n r) j) i) 0 0 := by
  intro h
  obtain ⟨c, f, hc, hf, hder⟩ := direction_deriv hd x0 z hr t
  have := (hder i hi).unique h
  obtain ⟨j, hj, hbig⟩ := hs
  have hf1 : 1 - f ≠ 0 := fun e => by
    have := hf.1 (by linarith)
    have := le_normInf r hj
    linarith
  exact mul_ne_zero (mul_ne_zero hc hf1) (by unfold jacL; exact sub_ne_zero.2 hl) this

/-! ### The system `x - b = 0` -/

/-- The system `x - b = 0`. -/
noncomputable def shift (n : ℕ) (b : ℕ → ℝ) : Sys := ⟨n, fun z i => z i - b i, fun _ i j => if i = j then 1 else 0⟩

theorem shift_differentiable (n : ℕ) (b : ℕ → ℝ) : Differentiable (shift n b) := by
  intro z v i hi
  have hl : HasDerivAt (fun e : ℝ => z i + e * v i) (v i) 0 := by
    simpa using ((hasDerivAt_id (0 : ℝ)).mul_const (v i)).const_add (z i)
  refine (hl.sub_const (b i)).congr_deriv ?_
  show _ = ∑ j ∈ Finset.range n, (if i = j then (1 : ℝ) else 0) * v j
  simp only [ite_mul, one_mul, zero_mul]
  rw [Finset.sum_ite_eq, if_pos (Finset.mem_range.2 (show i < n from hi))]

/-- A linear solver that solves systems with the identity. -/
def SolvesId (n : ℕ) (w : Tools) : Prop := ∀ A v, (∀ i < n, ∀ j < n, A i j = if i = j then (1 : ℝ) else 0) → ∃ r, w.lin A v = some r ∧ ∀ i < n, r i = v i

theorem dot_congr {n : ℕ} {v v' u u' : ℕ → ℝ} (h : ∀ i < n, v i = v' i) (h' : ∀ i < n, u i = u' i) : dot n v u = dot n v' u' :=
  Finset.sum_congr rfl fun i hi => by rw [h i (Finset.mem_range.1 hi), h' i (Finset.mem_range.1 hi)]

/-- One iteration for this system. -/
theorem shift_step {n : ℕ} {b x0 : ℕ → ℝ} {w : Tools} (hlin : SolvesId n w) (hsum : ∑ i ∈ Finset.range n, (x0 i - b i) ^ 2 ≤ 1000000) (st : State) :
    ∃ r f, 0 < f ∧ f ≤ 1 ∧ (∀ i < n, r i = f * (x0 i - b i)) ∧ step (shift n b) w x0 st = some (correct (shift n b) w st (direction n st.t r)) := by
  obtain ⟨r, hr, he⟩ := hlin (jacX (shift n b) st.x) (fun i => -jacL (shift n b) x0 st.x i) (fun i _ j _ => by
    unfold jacX shift; dsimp only; split_ifs <;> ring)
  obtain ⟨f, hf0, hf1, -, hfe⟩ := rescale_eq n r
  have hre : ∀ i < n, rescale n r i = f * (x0 i - b i) := fun i hi => by
    rw [hfe]
    show f * r i = _
    rw [he i hi]; unfold jacL shift; ring
  refine ⟨rescale n r, f, hf0, hf1, hre, ?_⟩
  unfold step
  rw [hr, Option.map_some]
  have hd : dot n (rescale n r) (rescale n r) = f ^ 2 * ∑ i ∈ Finset.range n, (x0 i - b i) ^ 2 := by
    rw [dot_congr hre hre]
    unfold dot
    rw [Finset.mul_sum]
    exact Finset.sum_congr rfl fun i _ => by ring
  have hS : 0 ≤ ∑ i ∈ Finset.range n, (x0 i - b i) ^ 2 := Finset.sum_nonneg fun _ _ => sq_nonneg _
  have hle : ¬ dot n (rescale n r) (rescale n r) > 1000000 := by
    rw [hd, gt_iff_lt, not_lt]
    have : f ^ 2 ≤ 1 := by nlinarith
    nlinarith
  show some _ = some _
  congr 1
  change { correct (shift n b) w st (direction n st.t (rescale n r)) with broken := decide (dot n (rescale n r) (rescale n r) > 1000000) } = _
  rw [decide_eq_false hle]
  unfold correct
  dsimp only
  split_ifs <;> rfl

theorem guess_feasible {n : ℕ} (hn : 6512 ≤ n) {b x0 : ℕ → ℝ} (hx : ∀ k < 501, 1 ≤ x0 (13 * k)) {a : Args} (ha : a.lam = none) :
    Feasible (shift n b) x0 a fun i => if i = n then 1 else x0 i := by
  have hn' : 0 ≤ reSize (shift n b) := by unfold reSize shift; dsimp only; omega
  refine feasible_free (a := ⟨some 1, x0, x0, none⟩) hn' ha (((ends_of_path hn' _ _).1 rfl).2 ⟨if_pos rfl, fun i hi => if_neg (Nat.ne_of_lt hi), hx⟩)

/-- **C160 (negative).** The loop has no limit and the bounds are fixed: for the system `x - b = 0`, whose root is `b`, the constructor never returns if one of 501 entries
of `b` is below 1, whatever the corrector does beyond returning feasible points. -/
theorem never_ends {n : ℕ} (hn : 6512 ≤ n) {b x0 : ℕ → ℝ} {w : Tools} (hw : Good (shift n b) x0 w) (hlin : SolvesId n w)
    (hsum : ∑ i ∈ Finset.range n, (x0 i - b i) ^ 2 ≤ 1000000) (hx : ∀ k < 501, 1 ≤ x0 (13 * k)) {j : ℕ} (hj : j < 501) (hb : b (13 * j) < 1) (k : ℕ) :
    ∃ st, construct (shift n b) w x0 k = .running st := by
  have hn' : 0 ≤ reSize (shift n b) := by unfold reSize shift; dsimp only; omega
  have key : ∀ a z, Feasible (shift n b) x0 a z → 0 < z n := by
    intro a z hz
    have h1 := ((bounds_iff hn' a z).1 hz.2).1 j hj
    have h2 : z n * (z (13 * j) - x0 (13 * j)) + (1 - z n) * (z (13 * j) - b (13 * j)) = 0 := hz.1 (13 * j) (show 13 * j < n by omega)
    have h3 := hx j hj
    by_contra hneg
    nlinarith [not_lt.1 hneg]
  have main : ∀ k st, 0 < st.lambda → st.broken = false → st.lam = none → ∃ st', loop (shift n b) w x0 k st = .running st' := by
    intro k
    induction k with
    | zero => intro st h1 h2 _; exact ⟨st, by unfold loop; rw [if_pos ⟨h1, h2⟩]⟩
    | succ k ih =>
      intro st h1 h2 h3
      obtain ⟨r, f, -, -, -, hst⟩ := shift_step (b := b) hlin hsum st
      unfold loop
      rw [if_pos ⟨h1, h2⟩, hst]
      have hc : correct (shift n b) w st (direction n st.t r) =
          ⟨(w.corrector ⟨st.lam, fun i => st.x i + 1 * direction n st.t r i, st.sol.x, some (st.sol.lamG, st.sol.lamX)⟩).x,
          w.corrector ⟨st.lam, fun i => st.x i + 1 * direction n st.t r i, st.sol.x, some (st.sol.lamG, st.sol.lamX)⟩, some (direction n st.t r), st.lam,
          (w.corrector ⟨st.lam, fun i => st.x i + 1 * direction n st.t r i, st.sol.x, some (st.sol.lamG, st.sol.lamX)⟩).x n, false⟩ := by
        unfold correct
        dsimp only
        exact if_neg (not_lt.2 (key _ _ (hw _ ⟨_, guess_feasible hn hx (by exact h3)⟩)).le)
      show ∃ st', loop (shift n b) w x0 k (correct (shift n b) w st (direction n st.t r)) = _
      rw [hc]
      exact ih _ (key _ _ (hw _ ⟨_, guess_feasible hn hx (by exact h3)⟩)) rfl h3
  unfold construct start
  rw [if_neg (not_lt.2 hn')]
  exact main k _ one_pos rfl rfl

/-- A corrector that returns a feasible point closest to the point given, if there is a feasible point. -/
def Best (s : Sys) (x0 : ℕ → ℝ) (w : Tools) : Prop :=
  Good s x0 w ∧ ∀ a z, Feasible s x0 a z → objective s a (w.corrector a).x ≤ objective s a z

/-- The path of this system. -/
noncomputable def line (n : ℕ) (b x0 : ℕ → ℝ) (m : ℝ) : ℕ → ℝ := fun i => if i = n then m else b i + m * (x0 i - b i)

theorem shift_feasible {n : ℕ} (hn : 6512 ≤ n) {b x0 : ℕ → ℝ} {a : Args} (ha : a.lam = none) (z : ℕ → ℝ) :
    Feasible (shift n b) x0 a z ↔ (∀ i ≤ n, z i = line n b x0 (z n) i) ∧ ∀ k < 501, 1 ≤ z (13 * k) := by
  have hn' : 0 ≤ reSize (shift n b) := by unfold reSize shift; dsimp only; omega
  unfold Feasible
  rw [bounds_iff hn', ha]
  constructor
  · rintro ⟨h1, h2, -⟩
    refine ⟨fun i hi => ?_, h2⟩
    unfold line
    by_cases h : i = n
    · rw [if_pos h, h]
    · rw [if_neg h]
      have : z n * (z i - x0 i) + (1 - z n) * (z i - b i) = 0 := h1 i (show i < n by omega)
      linarith
  · rintro ⟨h1, h2⟩
    refine ⟨fun i hi => ?_, h2, fun c hc => by cases hc⟩
    have hi : i < n := hi
    show z n * (z i - x0 i) + (1 - z n) * (z i - b i) = 0
    have := h1 i hi.le
    unfold line at this
    rw [if_neg (by omega)] at this
    rw [this]; ring

/-- The distance from a point of the path to a prediction, as a function of the point. -/
theorem line_objective {n : ℕ} {b x0 r z : ℕ → ℝ} {f : ℝ} (hr : ∀ i < n, r i = f * (x0 i - b i)) (hz : ∀ i ≤ n, z i = line n b x0 (z n) i)
    {a : Args} {m : ℝ} (ha : ∀ i ≤ n, a.p i = line n b x0 m i - tau n r i) :
    objective (shift n b) a z = 1 / 2 * ((z n - m) ^ 2 * (∑ i ∈ Finset.range n, (x0 i - b i) ^ 2 + 1)
      + 2 * (z n - m) * (1 / √(1 + dot n r r)) * (f * ∑ i ∈ Finset.range n, (x0 i - b i) ^ 2 + 1) + 1) := by
  have hu := tau_unit n r
  unfold objective
  show 1 / 2 * ∑ i ∈ Finset.range (n + 1), _ = _
  have e : ∀ i ∈ Finset.range n, (z i - a.p i) * (z i - a.p i) = (z n - m) ^ 2 * (x0 i - b i) ^ 2
      + 2 * (z n - m) * (1 / √(1 + dot n r r)) * f * (x0 i - b i) ^ 2 + tau n r i * tau n r i := by
    intro i hi
    have hi := Finset.mem_range.1 hi
    rw [ha i hi.le, hz i hi.le]
    unfold line tau
    rw [if_neg (by omega), if_neg (by omega), if_pos hi, hr i hi]
    ring
  have el : (z n - a.p n) * (z n - a.p n) = (z n - m) ^ 2 + 2 * (z n - m) * (1 / √(1 + dot n r r)) + tau n r n * tau n r n := by
    rw [ha n (le_refl n)]
    unfold line tau
    rw [if_pos rfl, if_neg (lt_irrefl n), if_pos rfl]
    ring
  unfold dot at hu
  rw [Finset.sum_range_succ] at hu
  rw [Finset.sum_range_succ, Finset.sum_congr rfl e, Finset.sum_add_distrib, Finset.sum_add_distrib, ← Finset.mul_sum, ← Finset.mul_sum, el]
  unfold dot at *
  linear_combination 1 / 2 * hu

theorem tau_turn {n : ℕ} {b x0 r r' : ℕ → ℝ} {f f' : ℝ} (hf : 0 < f) (hf' : 0 < f') (hr : ∀ i < n, r i = f * (x0 i - b i)) (hr' : ∀ i < n, r' i = f' * (x0 i - b i)) :
    dot (n + 1) (fun i => -tau n r' i) (tau n r) < 0 := by
  have hp : 0 < 1 + dot n r r := by have := dot_self_nonneg n r; linarith
  have hp' : 0 < 1 + dot n r' r' := by have := dot_self_nonneg n r'; linarith
  have hl := one_div_pos.2 (Real.sqrt_pos.2 hp)
  have hl' := one_div_pos.2 (Real.sqrt_pos.2 hp')
  have hS : 0 ≤ ∑ i ∈ Finset.range n, (x0 i - b i) ^ 2 := Finset.sum_nonneg fun _ _ => sq_nonneg _
  have e : dot (n + 1) (fun i => -tau n r' i) (tau n r) = -(1 / √(1 + dot n r r) * (1 / √(1 + dot n r' r')) * (f * f' * ∑ i ∈ Finset.range n, (x0 i - b i) ^ 2 + 1)) := by
    rw [dot, Finset.sum_range_succ]
    have e : ∀ i ∈ Finset.range n, -tau n r' i * tau n r i = -(1 / √(1 + dot n r r) * (1 / √(1 + dot n r' r')) * (f * f')) * (x0 i - b i) ^ 2 := by
      intro i hi
      have hi := Finset.mem_range.1 hi
      unfold tau
      rw [if_pos hi, if_pos hi, hr i hi, hr' i hi]
      ring
    rw [Finset.sum_congr rfl e, ← Finset.mul_sum]
    unfold tau
    rw [if_neg (lt_irrefl n), if_pos rfl, if_neg (lt_irrefl n), if_pos rfl]
    ring
  rw [e, neg_lt_zero]
  exact mul_pos (mul_pos hl hl') (by have := mul_nonneg (mul_pos hf hf').le hS; linarith)

/-- **C160.** For the system `x - b = 0`, if guess and root satisfy the bounds and are at most 1000 apart, and the corrector returns closest points, the constructor
does return, and its last point is the root. -/
theorem shift_ends {n : ℕ} (hn : 6512 ≤ n) {b x0 : ℕ → ℝ} {w : Tools} (hw : Best (shift n b) x0 w) (hlin : SolvesId n w)
    (hsum : ∑ i ∈ Finset.range n, (x0 i - b i) ^ 2 ≤ 1000000) (hx : ∀ k < 501, 1 ≤ x0 (13 * k)) (hb : ∀ k < 501, 1 ≤ b (13 * k)) :
    ∃ k st, construct (shift n b) w x0 k = .ended st ∧ st.broken = false ∧ st.x n = 0 ∧ ∀ i < n, st.x i = b i := by
  have hn' : 0 ≤ reSize (shift n b) := by unfold reSize shift; dsimp only; omega
  have hS : 0 ≤ ∑ i ∈ Finset.range n, (x0 i - b i) ^ 2 := Finset.sum_nonneg fun _ _ => sq_nonneg _
  have hroot : ∃ y : ℕ → ℝ, y (shift n b).n = 0 ∧ (∀ i < (shift n b).n, (shift n b).F y i = 0) ∧ ∀ k < 501, 1 ≤ y (13 * k) := by
    refine ⟨fun i => if i = n then 0 else b i, if_pos rfl, fun i hi => ?_, fun k hk => ?_⟩
    · have hi : i < n := hi
      show (if i = n then 0 else b i) - b i = 0
      rw [if_neg (by omega), sub_self]
    · show 1 ≤ if 13 * k = n then 0 else b (13 * k)
      rw [if_neg (by omega)]; exact hb k hk
  suffices h : ∃ k st, construct (shift n b) w x0 k = .ended st ∧ st.broken = false by
    obtain ⟨k, st, h1, h2⟩ := h
    obtain ⟨h3, h4, -⟩ := ends_at_root hw.1 hroot h1 h2
    exact ⟨k, st, h1, h2, h3, fun i hi => sub_eq_zero.1 (h4 i hi)⟩
  -- the progress made in one iteration
  have prog : ∃ d : ℝ, 0 < d ∧ ∀ st : State, 0 < st.lambda → st.lambda ≤ 1 → st.lam = none → (∀ i ≤ n, st.x i = line n b x0 st.lambda i) →
      (st.t = none ∨ ∃ r f, 0 < f ∧ (∀ i < n, r i = f * (x0 i - b i)) ∧ st.t = some fun i => -tau n r i) →
      ∃ st', step (shift n b) w x0 st = some st' ∧ st'.broken = false ∧ (st'.lambda ≤ 0 ∨ st'.lambda ≤ st.lambda - d ∧ st'.lam = none ∧
        (∀ i ≤ n, st'.x i = line n b x0 st'.lambda i) ∧ ∃ r f, 0 < f ∧ (∀ i < n, r i = f * (x0 i - b i)) ∧ st'.t = some fun i => -tau n r i) := by
    have hq : 0 < √(1 + ∑ i ∈ Finset.range n, (x0 i - b i) ^ 2) := Real.sqrt_pos.2 (by linarith)
    refine ⟨1 / √(1 + ∑ i ∈ Finset.range n, (x0 i - b i) ^ 2) * (1 / (∑ i ∈ Finset.range n, (x0 i - b i) ^ 2 + 1)), by positivity, ?_⟩
    intro st hl hl1 hlam hline ht
    obtain ⟨r, f, hf0, hf1, hr, hst⟩ := shift_step (b := b) hlin hsum st
    have hdir : direction n st.t r = fun i => -tau n r i := by
      unfold direction
      rcases ht with ht | ⟨r', f', hf', hr', ht⟩
      · rw [ht]
      · rw [ht]
        dsimp only
        rw [if_neg (not_le.2 (tau_turn hf0 hf' hr hr'))]
    rw [hdir] at hst
    have hdot : dot n r r = f ^ 2 * ∑ i ∈ Finset.range n, (x0 i - b i) ^ 2 := by
      rw [dot_congr hr hr]
      unfold dot
      rw [Finset.mul_sum]
      exact Finset.sum_congr rfl fun i _ => by ring
    have hbest := hw.2 ⟨st.lam, fun i => st.x i + 1 * -tau n r i, st.sol.x, some (st.sol.lamG, st.sol.lamX)⟩
    have hfeas := hw.1 ⟨st.lam, fun i => st.x i + 1 * -tau n r i, st.sol.x, some (st.sol.lamG, st.sol.lamX)⟩ ⟨_, guess_feasible hn hx (by exact hlam)⟩
    have hzl := ((shift_feasible hn (by exact hlam) _).1 hfeas).1
    have hpl : ∀ i ≤ n, (Args.mk st.lam (fun i => st.x i + 1 * -tau n r i) st.sol.x (some (st.sol.lamG, st.sol.lamX))).p i = line n b x0 st.lambda i - tau n r i := by
      intro i hi
      show st.x i + 1 * -tau n r i = _
      rw [hline i hi]; ring
    refine ⟨_, hst, ?_, ?_⟩
    · unfold correct; dsimp only; split_ifs <;> rfl
    unfold correct
    dsimp only
    have hcm : (w.corrector ⟨st.lam, fun i => st.x i + 1 * -tau n r i, st.sol.x, some (st.sol.lamG, st.sol.lamX)⟩).x n ≤
        max 0 (st.lambda - 1 / √(1 + ∑ i ∈ Finset.range n, (x0 i - b i) ^ 2) * (1 / (∑ i ∈ Finset.range n, (x0 i - b i) ^ 2 + 1))) := by
      by_contra hgt
      have hgt := not_le.1 hgt
      have hc0 := le_max_left 0 (st.lambda - 1 / √(1 + ∑ i ∈ Finset.range n, (x0 i - b i) ^ 2) * (1 / (∑ i ∈ Finset.range n, (x0 i - b i) ^ 2 + 1)))
      have hc1 := le_max_right 0 (st.lambda - 1 / √(1 + ∑ i ∈ Finset.range n, (x0 i - b i) ^ 2) * (1 / (∑ i ∈ Finset.range n, (x0 i - b i) ^ 2 + 1)))
      have hc2 : max 0 (st.lambda - 1 / √(1 + ∑ i ∈ Finset.range n, (x0 i - b i) ^ 2) * (1 / (∑ i ∈ Finset.range n, (x0 i - b i) ^ 2 + 1))) ≤ 1 :=
        max_le (by norm_num) (by
          have : 0 < 1 / √(1 + ∑ i ∈ Finset.range n, (x0 i - b i) ^ 2) * (1 / (∑ i ∈ Finset.range n, (x0 i - b i) ^ 2 + 1)) := by positivity
          linarith)
      have hstep : 1 / √(1 + ∑ i ∈ Finset.range n, (x0 i - b i) ^ 2) * (1 / (∑ i ∈ Finset.range n, (x0 i - b i) ^ 2 + 1)) * (∑ i ∈ Finset.range n, (x0 i - b i) ^ 2 + 1)
          ≤ 1 / √(1 + dot n r r) * (f * ∑ i ∈ Finset.range n, (x0 i - b i) ^ 2 + 1) := by
        have h1 : 1 / √(1 + ∑ i ∈ Finset.range n, (x0 i - b i) ^ 2) ≤ 1 / √(1 + dot n r r) := by
          refine one_div_le_one_div_of_le (Real.sqrt_pos.2 (by rw [hdot]; positivity)) (Real.sqrt_le_sqrt ?_)
          rw [hdot]
          have : f ^ 2 ≤ 1 := by nlinarith
          nlinarith
        have h2 : 1 ≤ f * ∑ i ∈ Finset.range n, (x0 i - b i) ^ 2 + 1 := by have := mul_nonneg hf0.le hS; linarith
        have h3 : 1 / √(1 + ∑ i ∈ Finset.range n, (x0 i - b i) ^ 2) * (1 / (∑ i ∈ Finset.range n, (x0 i - b i) ^ 2 + 1)) * (∑ i ∈ Finset.range n, (x0 i - b i) ^ 2 + 1)
            = 1 / √(1 + ∑ i ∈ Finset.range n, (x0 i - b i) ^ 2) := by
          rw [mul_assoc, one_div_mul_cancel (by positivity), mul_one]
        rw [h3]
        have h4 : 0 < 1 / √(1 + ∑ i ∈ Finset.range n, (x0 i - b i) ^ 2) := one_div_pos.2 hq
        nlinarith
      generalize max 0 (st.lambda - 1 / √(1 + ∑ i ∈ Finset.range n, (x0 i - b i) ^ 2) * (1 / (∑ i ∈ Finset.range n, (x0 i - b i) ^ 2 + 1))) = c at *
      have hfc : Feasible (shift n b) x0 ⟨st.lam, fun i => st.x i + 1 * -tau n r i, st.sol.x, some (st.sol.lamG, st.sol.lamX)⟩ (line n b x0 c) := by
        refine (shift_feasible hn (by exact hlam) _).2 ⟨fun i hi => ?_, fun k hk => ?_⟩
        · unfold line; rw [if_pos rfl]
        · unfold line
          rw [if_neg (by omega)]
          nlinarith [hx k hk, hb k hk, mul_nonneg hc0 (sub_nonneg.2 (hx k hk)), mul_nonneg (sub_nonneg.2 hc2) (sub_nonneg.2 (hb k hk))]
      have hle := hbest _ hfc
      rw [line_objective hr hzl hpl, line_objective (z := line n b x0 c) hr (fun i hi => by unfold line; rw [if_pos rfl]) hpl] at hle
      have hcn : line n b x0 c n = c := if_pos rfl
      rw [hcn] at hle
      generalize (w.corrector ⟨st.lam, fun i => st.x i + 1 * -tau n r i, st.sol.x, some (st.sol.lamG, st.sol.lamX)⟩).x n = m at *
      generalize ∑ i ∈ Finset.range n, (x0 i - b i) ^ 2 = S at *
      generalize 1 / √(1 + S) * (1 / (S + 1)) = d at *
      generalize 1 / √(1 + dot n r r) = l at *
      have h5 : 0 < m - c := sub_pos.2 hgt
      have h6 : 0 < (m + c - 2 * st.lambda) * (S + 1) + 2 * (l * (f * S + 1)) := by
        have h7 : 0 < m + c - 2 * st.lambda + 2 * d := by linarith
        have h8 := mul_pos h7 (show 0 < S + 1 by linarith)
        nlinarith
      nlinarith [mul_pos h5 h6]
    by_cases hneg : (w.corrector ⟨st.lam, fun i => st.x i + 1 * -tau n r i, st.sol.x, some (st.sol.lamG, st.sol.lamX)⟩).x n < 0
    · left
      rw [if_pos (by exact hneg)]
      obtain ⟨y, hy⟩ := hroot
      have hf := hw.1 ⟨some 0, fun i => st.x i + 1 * -tau n r i, st.sol.x, some (st.sol.lamG, st.sol.lamX)⟩ ⟨y, ((ends_of_path hn' _ _).2 rfl).2 hy⟩
      exact (((ends_of_path hn' _ _).2 rfl).1 hf).1.le
    · rw [if_neg (by exact hneg)]
      rcases le_max_iff.1 hcm with h | h
      · exact Or.inl h
      · exact Or.inr ⟨h, hlam, hzl, r, f, hf0, hr, rfl⟩
  obtain ⟨d, hd, prog⟩ := prog
  have main : ∀ k : ℕ, ∀ st : State, st.broken = false → (0 < st.lambda → st.lambda ≤ 1 ∧ st.lambda ≤ k * d ∧ st.lam = none ∧ (∀ i ≤ n, st.x i = line n b x0 st.lambda i) ∧
      (st.t = none ∨ ∃ r f, 0 < f ∧ (∀ i < n, r i = f * (x0 i - b i)) ∧ st.t = some fun i => -tau n r i)) →
      ∃ st', loop (shift n b) w x0 k st = .ended st' ∧ st'.broken = false := by
    intro k
    induction k with
    | zero =>
      intro st h1 h2
      have : ¬ (st.lambda > 0 ∧ st.broken = false) := fun h => by
        have := (h2 h.1).2.1
        rw [Nat.cast_zero, zero_mul] at this
        linarith [h.1]
      exact ⟨st, by unfold loop; rw [if_neg this], h1⟩
    | succ k ih =>
      intro st h1 h2
      unfold loop
      by_cases hl : 0 < st.lambda
      · obtain ⟨g1, g2, g3, g4, g5⟩ := h2 hl
        obtain ⟨st', hs, hbr, hor⟩ := prog st hl g1 g3 g4 g5
        rw [if_pos ⟨hl, h1⟩, hs]
        refine ih st' hbr fun hpos => ?_
        rcases hor with h | ⟨q1, q2, q3, q4⟩
        · exact absurd hpos (not_lt.2 h)
        · rw [Nat.cast_succ, add_mul, one_mul] at g2
          exact ⟨by linarith, by linarith, q2, q3, Or.inr q4⟩
      · rw [if_neg (fun h => hl h.1)]
        exact ⟨st, rfl, h1⟩
  obtain ⟨k, hk⟩ := exists_nat_gt (1 / d)
  rw [div_lt_iff₀ hd] at hk
  have hf0 : Feasible (shift n b) x0 ⟨some 1, fun i => if i = n then 1 else x0 i, fun i => if i = n then 1 else x0 i, none⟩ (fun i => if i = n then 1 else x0 i) :=
    ((ends_of_path hn' _ _).1 rfl).2 ⟨if_pos rfl, fun i hi => if_neg (Nat.ne_of_lt hi), hx⟩
  have hf1 := ((ends_of_path hn' _ _).1 rfl).1 (hw.1 _ ⟨_, hf0⟩)
  refine ⟨k, ?_⟩
  unfold construct start
  rw [if_neg (not_lt.2 hn')]
  refine main k _ rfl fun _ => ⟨le_refl _, hk.le, rfl, fun i hi => ?_, Or.inl rfl⟩
  unfold line
  dsimp only
  by_cases h : i = n
  · rw [if_pos h, h]; exact hf1.1
  · rw [if_neg h]
    refine (hf1.2.1 i (show i < n by omega)).trans (by ring)

/-! ### Concrete cases -/

/-- Tools for the system `x - 1 = 0` with guess 1. -/
noncomputable def exTools : Tools := ⟨fun a => ⟨fun i => if i = 6512 then a.lam.getD (a.p 6512) else 1, fun _ => 0, fun _ => 0⟩, fun _ v => some v⟩

theorem exTools_best : Best (shift 6512 fun _ => 1) (fun _ => 1) exTools := by
  have hn' : 0 ≤ reSize (shift 6512 fun _ => 1) := by decide
  have hz : ∀ a z, Feasible (shift 6512 fun _ => 1) (fun _ => 1) a z → ∀ i < 6512, z i = 1 := by
    intro a z h i hi
    have : z 6512 * (z i - 1) + (1 - z 6512) * (z i - 1) = 0 := h.1 i hi
    linarith
  refine ⟨fun a _ => ⟨fun i hi => ?_, ?_⟩, fun a z h => ?_⟩
  · have hi : i < 6512 := hi
    unfold homotopy shift exTools
    dsimp only
    rw [if_pos rfl, if_neg (by omega)]; ring
  · rw [bounds_iff hn']
    refine ⟨fun k hk => ?_, fun c hc => ?_⟩
    · show 1 ≤ if 13 * k = 6512 then _ else (1 : ℝ)
      rw [if_neg (by omega)]
    · show (if 6512 = 6512 then a.lam.getD (a.p 6512) else 1) = c
      rw [if_pos rfl, hc]; rfl
  · unfold objective
    refine mul_le_mul_of_nonneg_left ?_ (by norm_num)
    rw [Finset.sum_range_succ, Finset.sum_range_succ]
    refine add_le_add (Finset.sum_le_sum fun i hi => ?_) ?_
    · have hi : i < 6512 := Finset.mem_range.1 hi
      rw [hz a z h i hi]
      show ((if i = 6512 then _ else (1 : ℝ)) - a.p i) * ((if i = 6512 then _ else (1 : ℝ)) - a.p i) ≤ _
      rw [if_neg (by omega)]
    · show ((if 6512 = 6512 then a.lam.getD (a.p 6512) else (1 : ℝ)) - a.p 6512) * ((if 6512 = 6512 then a.lam.getD (a.p 6512) else (1 : ℝ)) - a.p 6512) ≤ _
      rw [if_pos rfl]
      cases ha : a.lam with
      | none =>
        show (a.p 6512 - a.p 6512) * _ ≤ _
        rw [sub_self, zero_mul]; exact mul_self_nonneg _
      | some c =>
        have : z (shift 6512 fun _ => 1).n = c := ((bounds_iff hn' a z).1 h.2).2 c ha
        rw [this]; exact le_refl _

/-- Nonvacuity of `ends_at_root` and `shift_ends`. -/
example : ∃ k st, construct (shift 6512 fun _ => 1) exTools (fun _ => 1) k = .ended st ∧ st.broken = false ∧ st.x 6512 = 0 ∧ ∀ i < 6512, st.x i = 1 :=
  shift_ends (le_refl _) exTools_best (fun _ v _ => ⟨v, rfl, fun _ _ => rfl⟩) (by simp) (fun _ _ => le_refl _) fun _ _ => le_refl _

/-- Nonvacuity of `never_ends`: root 0, guess 1. -/
example : ∃ w, Good (shift 6512 fun _ => 0) (fun _ => 1) w ∧ SolvesId 6512 w ∧ ∑ _i ∈ Finset.range 6512, ((1 : ℝ) - 0) ^ 2 ≤ 1000000 := by
  have hn' : 0 ≤ reSize (shift 6512 fun _ => 0) := by decide
  refine ⟨⟨fun a => ⟨fun _ => a.lam.getD 1, fun _ => 0, fun _ => 0⟩, fun _ v => some v⟩, ?_, fun _ v _ => ⟨v, rfl, fun _ _ => rfl⟩, by simp; norm_num⟩
  rintro a ⟨z, hz⟩
  have key : 1 ≤ z 6512 := by
    have h1 := ((bounds_iff hn' a z).1 hz.2).1 0 (by norm_num)
    have h2 : z 6512 * (z 0 - 1) + (1 - z 6512) * (z 0 - 0) = 0 := hz.1 0 (show 0 < 6512 by norm_num)
    simp only [mul_zero] at h1
    linarith
  refine ⟨fun i _ => ?_, ?_⟩
  · unfold homotopy shift; dsimp only; ring
  · rw [bounds_iff hn']
    refine ⟨fun k _ => ?_, fun c hc => by show a.lam.getD 1 = c; rw [hc]; rfl⟩
    show 1 ≤ a.lam.getD 1
    cases ha : a.lam with
    | none => exact le_refl _
    | some c =>
      have : z 6512 = c := ((bounds_iff hn' a z).1 hz.2).2 c ha
      show 1 ≤ c
      rw [← this]; exact key

/-- Nonvacuity of `step_tangent` and `rescaled_not_tangent`: for `x - b = 0` the solution of the linear system is the difference of guess and root. -/
example (z x0 b : ℕ → ℝ) : Differentiable (shift 2 b) ∧ ∀ i < 2, ∑ j ∈ Finset.range 2, jacX (shift 2 b) z i j * (x0 j - b j) = -jacL (shift 2 b) x0 z i := by
  refine ⟨shift_differentiable 2 b, fun i hi => ?_⟩
  rw [Finset.sum_range_succ, Finset.sum_range_succ, Finset.sum_range_zero]
  unfold jacX jacL shift
  rcases (show i = 0 ∨ i = 1 by omega) with rfl | rfl <;> norm_num

end PolyMPC.Psarc
