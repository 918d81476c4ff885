import Mathlib.Algebra.Order.Field.Rat
import Verif.Model.SqpNan
import Verif.Props.FilterNan
import Verif.Lemmas.Sqp

/-!
# Property C245: NaN in the constraints and in the cost of an SQP solver
-/

set_option linter.unusedSectionVars false

namespace PolyMPC.SqpNan
open PolyMPC.FilterNan PolyMPC.Spec

variable {K : Type*} [Field K] [LinearOrder K] [IsStrictOrderedRing K] {n me mi : ℕ}

/-- What is assumed of `maxCoeff`: the largest entry of a vector of numbers, NaN for a vector of NaN. -/
structure MaxCoeff (mc : (k : ℕ) → (Fin k → Option K) → Option K) : Prop where
  numbers : ∀ k (v : Fin k → K), 0 < k → ∃ m, mc k (fun i => some (v i)) = some m ∧ (∃ i, m = v i) ∧ ∀ i, v i ≤ m
  nan : ∀ k (v : Fin k → Option K), 0 < k → (∀ i, v i = none) → mc k v = none

variable {mc : (k : ℕ) → (Fin k → Option K) → Option K}

theorem fmaxN_none_right (a : Option K) : fmaxN a none = a := by cases a <;> rfl

theorem fmaxN_none_left (a : Option K) : fmaxN none a = a := rfl

/-- What the bounds on the variables contribute. -/
theorem box_part (hm : MaxCoeff mc) (hn : 0 < n) (bd : Sqp.Bounds K n mi) (x : Fin n → K) :
    ∃ a b, mc n (fun i => some (bd.lbx i - x i)) = some a ∧ mc n (fun i => some (x i - bd.ubx i)) = some b ∧
      (∃ i, a = bd.lbx i - x i) ∧ (∀ i, bd.lbx i - x i ≤ a) ∧ (∃ i, b = x i - bd.ubx i) ∧ ∀ i, x i - bd.ubx i ≤ b := by
  obtain ⟨a, h1, h2, h3⟩ := hm.numbers n (fun i => bd.lbx i - x i) hn
  obtain ⟨b, h4, h5, h6⟩ := hm.numbers n (fun i => x i - bd.ubx i) hn
  exact ⟨a, b, h1, h4, h2, h3, h5, h6⟩

/-- C245. Whatever the constraints evaluate to, `constr_violation` is a number: NaN never shows in it. -/
theorem violation_number (hm : MaxCoeff mc) (hn : 0 < n) (bd : Sqp.Bounds K n mi) (c : Fin me → Option K)
    (g : Fin mi → Option K) (x : Fin n → K) : ∃ m, maxViolation mc bd c g x = some m := by
  obtain ⟨a, b, ha, hb, _⟩ := box_part hm hn bd x
  unfold maxViolation
  simp only [ha, hb]
  generalize (if 0 < mi then _ else _ : Option K) = c1
  cases c1 with
  | none => exact ⟨_, rfl⟩
  | some t => exact ⟨_, rfl⟩

/-- C245. Inequality constraints that are NaN count as if there were none. -/
theorem violation_ignores_ineq (hm : MaxCoeff mc) (bd : Sqp.Bounds K n mi) (c : Fin me → Option K)
    (g : Fin mi → Option K) (hg : ∀ i, g i = none) (x : Fin n → K) :
    maxViolation mc bd c g x =
      maxViolation (mi := 0) mc ⟨bd.lbx, bd.ubx, Fin.elim0, Fin.elim0⟩ c (fun i => i.elim0) x := by
  unfold maxViolation
  simp only [lt_irrefl, if_false]
  congr 2
  by_cases h : 0 < mi
  · rw [if_pos h, hm.nan mi _ h (fun i => by rw [hg i]; rfl), hm.nan mi _ h (fun i => by rw [hg i]; rfl),
      fmaxN_none_right, fmaxN_none_right]
  · rw [if_neg h]

/-- C245. If all constraints are NaN the violation is that of the bounds on the variables: a point within them passes
the test of the violation for every nonnegative tolerance. -/
theorem violation_nan (hm : MaxCoeff mc) (hn : 0 < n) (bd : Sqp.Bounds K n mi) (c : Fin me → Option K)
    (g : Fin mi → Option K) (hc : ∀ i, c i = none) (hg : ∀ i, g i = none) (x : Fin n → K)
    (hx : ∀ i, bd.lbx i ≤ x i ∧ x i ≤ bd.ubx i) {eps : K} (he : 0 ≤ eps) :
    leN (maxViolation mc bd c g x) (some eps) = true := by
  rw [violation_ignores_ineq hm bd c g hg x]
  obtain ⟨a, b, ha, hb, ⟨i, hi⟩, _, ⟨j, hj⟩, _⟩ := box_part hm hn bd x
  have ha0 : a ≤ 0 := by rw [hi]; linarith [(hx i).1]
  have hb0 : b ≤ 0 := by rw [hj]; linarith [(hx j).2]
  unfold maxViolation
  simp only [lt_irrefl, if_false, ha, hb]
  by_cases h : 0 < me
  · rw [if_pos h, hm.nan me _ h (fun i => by rw [hc i]; rfl)]
    show decide (max a b ≤ eps) = true
    rw [decide_eq_true_eq]
    exact max_le (ha0.trans he) (hb0.trans he)
  · rw [if_neg h]
    show decide (max (max 0 a) b ≤ eps) = true
    rw [decide_eq_true_eq]
    exact max_le (max_le he (ha0.trans he)) (hb0.trans he)

/-- Without NaN this is the violation of the other properties (C24, C26). -/
theorem violation_nan_free [NeZero n] (hm : MaxCoeff mc) (prob : Sqp.Problem K n me mi) (bd : Sqp.Bounds K n mi)
    (x : Fin n → K) :
    maxViolation mc bd (fun i => some (prob.eq x i)) (fun i => some (prob.ineq x i)) x =
      some (Sqp.maxConstraintsViolation prob bd x) := by
  have mx : ∀ {k : ℕ} [NeZero k] (v : Fin k → K), mc k (fun i => some (v i)) = some (Sqp.maxCoeff v) := by
    intro k _ v
    obtain ⟨m, h1, ⟨i, h2⟩, h3⟩ := hm.numbers k v (Nat.pos_of_ne_zero (NeZero.ne k))
    rw [h1]
    congr 1
    refine le_antisymm ?_ (Finset.sup'_le _ _ fun i _ => h3 i)
    rw [h2]
    exact Finset.le_sup' v (Finset.mem_univ i)
  have c0 : (if 0 < me then mc me (fun i => (some (prob.eq x i)).map fun t => |t|) else some 0) =
      some (if 0 < me then infNorm (prob.eq x) else 0) := by
    by_cases h : 0 < me
    · rw [if_pos h, if_pos h]
      obtain ⟨m, h1, ⟨i, h2⟩, h3⟩ := hm.numbers me (fun i => |prob.eq x i|) h
      simp only [Option.map_some]
      rw [h1]
      congr 1
      refine le_antisymm ?_ ?_
      · rw [h2]; exact le_infNorm _ i
      · exact (infNorm_le_iff _).2 ⟨by rw [h2]; exact abs_nonneg _, h3⟩
    · rw [if_neg h, if_neg h]
  have gl : ∀ v : Fin n → K, mc n (fun i => some (v i)) = some (Sqp.maxCoeff v) := fun v => mx v
  unfold maxViolation Sqp.maxConstraintsViolation
  rw [c0]
  simp only [gl, subN, Option.bind_some, Option.map_some]
  by_cases h : 0 < mi
  · have : NeZero mi := ⟨h.ne'⟩
    rw [if_pos h, dif_pos h, mx (fun i => bd.lbg i - prob.ineq x i), mx (fun i => prob.ineq x i - bd.ubg i)]
    rfl
  · rw [if_neg h, dif_neg h]
    rfl

/-! ## Line search -/

/-- C245. The Armijo test never accepts a trial point with NaN: the step returned is the smallest one, which is taken
without a test, or one at which the merit function is a number. -/
theorem search_number (tau eta : K) (phi Dphi : Option K) (merit : K → Option K) (fuel : ℕ) (a : K) :
    searchLoop tau eta phi Dphi merit fuel a = tau ^ fuel * a ∨
      ∃ m, merit (searchLoop tau eta phi Dphi merit fuel a) = some m := by
  induction fuel generalizing a with
  | zero => left; simp [searchLoop]
  | succ fuel ih =>
    unfold searchLoop
    by_cases h : leN (merit a) (phi.bind fun u => Dphi.map fun b => u + a * eta * b) = true
    · rw [if_pos h]
      right
      cases hm : merit a with
      | none => rw [hm] at h; cases h
      | some m => exact ⟨m, rfl⟩
    · rw [if_neg h]
      rcases ih (tau * a) with h1 | h1
      · left; rw [h1, pow_succ]; ring
      · exact Or.inr h1

/-- Without NaN this is the line search of the other properties (C25). -/
theorem search_nan_free (tau eta phi Dphi mu : K) (cost viol : (Fin n → K) → K) (x p : Fin n → K) (fuel : ℕ)
    (a logged : K) :
    searchLoop tau eta (some phi) (some Dphi) (fun a => some (cost (x + a • p) + mu * viol (x + a • p))) fuel a =
      (Sqp.lineSearchLoop tau eta phi Dphi mu cost viol x p fuel a logged).1 := by
  induction fuel generalizing a logged with
  | zero => rfl
  | succ fuel ih =>
    have e : x + a • p = fun i => a * p i + x i := funext fun i => add_comm _ _
    unfold searchLoop Sqp.lineSearchLoop
    simp only [e, Option.bind_some, Option.map_some, leN, decide_eq_true_eq]
    split_ifs
    · rfl
    · exact ih _ _

/-- If no comparison can hold, because the merit function is NaN at the current point or at all trial points, the step is
the smallest one. -/
theorem search_nan (tau eta : K) (phi Dphi : Option K) (merit : K → Option K) (fuel : ℕ) (a : K)
    (h : phi = none ∨ ∀ k : ℕ, merit (tau ^ k * a) = none) :
    searchLoop tau eta phi Dphi merit fuel a = tau ^ fuel * a := by
  induction fuel generalizing a with
  | zero => simp [searchLoop]
  | succ fuel ih =>
    unfold searchLoop
    have hf : leN (merit a) (phi.bind fun u => Dphi.map fun b => u + a * eta * b) = false := by
      rcases h with h | h
      · rw [h]; cases merit a <;> rfl
      · have := h 0
        rw [pow_zero, one_mul] at this
        rw [this]; rfl
    rw [if_neg (by rw [hf]; simp), ih (tau * a) ?_, pow_succ]
    · ring
    · refine h.imp id fun h k => ?_
      have := h (k + 1)
      rwa [pow_succ, mul_assoc] at this

/-- C245. NaN can be reported as SOLVED. If the merit function is NaN at the current point, or at all trial points, and the
constraints are NaN at the new point, which is within the bounds on the variables, the termination test holds as soon as
the step times `tau^(line_search_max_iter - 1)` is below the tolerances. -/
theorem nan_solved (hm : MaxCoeff mc) (hn : 0 < n) (cfg : Sqp.Settings K) (bd : Sqp.Bounds K n mi)
    (phi Dphi : Option K) (merit : K → Option K) (x p : Fin n → K) (normP normPl : K)
    (cAt : (Fin n → K) → Fin me → Option K) (gAt : (Fin n → K) → Fin mi → Option K)
    (hphi : phi = none ∨ ∀ k : ℕ, merit (cfg.tau ^ k) = none)
    (hc : ∀ i, cAt (fun i => x i + cfg.tau ^ (cfg.lineSearchMaxIter - 1).toNat * p i) i = none)
    (hg : ∀ i, gAt (fun i => x i + cfg.tau ^ (cfg.lineSearchMaxIter - 1).toNat * p i) i = none) (he : 0 ≤ cfg.epsPrim)
    (hP : cfg.tau ^ (cfg.lineSearchMaxIter - 1).toNat * normP ≤ cfg.epsPrim)
    (hPl : cfg.tau ^ (cfg.lineSearchMaxIter - 1).toNat * normPl ≤ cfg.epsDual)
    (hx : ∀ i, bd.lbx i ≤ x i + cfg.tau ^ (cfg.lineSearchMaxIter - 1).toNat * p i ∧
      x i + cfg.tau ^ (cfg.lineSearchMaxIter - 1).toNat * p i ≤ bd.ubx i) :
    stepAndTest mc cfg bd phi Dphi merit x p normP normPl cAt gAt = true := by
  unfold stepAndTest stepSize
  simp only
  rw [search_nan cfg.tau cfg.eta phi Dphi merit _ 1 (by simpa using hphi), mul_one]
  unfold terminatedN
  rw [violation_nan hm hn bd _ _ hc hg _ hx he]
  rw [decide_eq_true hP, decide_eq_true hPl]
  rfl

/-- C245. With the default settings this is so for every step of size up to `10^26`. -/
theorem nan_solved_default (hm : MaxCoeff mc) (hn : 0 < n) (bd : Sqp.Bounds K n mi) (phi Dphi : Option K)
    (merit : K → Option K) (x p : Fin n → K) (normP normPl : K) (cAt : (Fin n → K) → Fin me → Option K)
    (gAt : (Fin n → K) → Fin mi → Option K) (hphi : phi = none ∨ ∀ a, merit a = none)
    (hc : ∀ i, cAt (fun i => x i + (1 / 2) ^ 99 * p i) i = none)
    (hg : ∀ i, gAt (fun i => x i + (1 / 2) ^ 99 * p i) i = none) (hP : normP ≤ 10 ^ 26) (hPl : normPl ≤ 10 ^ 26)
    (hx : ∀ i, bd.lbx i ≤ x i + (1 / 2) ^ 99 * p i ∧ x i + (1 / 2) ^ 99 * p i ≤ bd.ubx i) :
    stepAndTest mc Sqp.Settings.default bd phi Dphi merit x p normP normPl cAt gAt = true := by
  have e : ((Sqp.Settings.default : Sqp.Settings K).lineSearchMaxIter - 1).toNat = 99 := rfl
  have small : ∀ t : K, t ≤ 10 ^ 26 → (1 / 2 : K) ^ 99 * t ≤ 1 / 1000 := by
    intro t ht
    refine (mul_le_mul_of_nonneg_left ht (by positivity)).trans ?_
    norm_num
  refine nan_solved hm hn _ bd phi Dphi merit x p normP normPl cAt gAt (hphi.imp id fun h k => h _) hc hg ?_ ?_ ?_ ?_
  · show (0 : K) ≤ 1 / 1000
    norm_num
  · rw [e]; exact small normP hP
  · rw [e]; exact small normPl hPl
  · rw [e]; exact hx

/-! ## Non-vacuity -/

/-- A `maxCoeff` that propagates NaN. -/
def mcProp (k : ℕ) (v : Fin k → Option ℚ) : Option ℚ :=
  if h : 0 < k ∧ ∀ i, (v i).isSome = true then
    haveI : NeZero k := ⟨h.1.ne'⟩
    some (Finset.univ.sup' Finset.univ_nonempty fun i => (v i).get (h.2 i))
  else none

theorem mcProp_ok : MaxCoeff mcProp where
  numbers k v hk := by
    have : NeZero k := ⟨hk.ne'⟩
    refine ⟨Finset.univ.sup' Finset.univ_nonempty v, ?_, ?_, fun i => Finset.le_sup' v (Finset.mem_univ i)⟩
    · unfold mcProp
      rw [dif_pos ⟨hk, fun _ => rfl⟩]
      rfl
    · obtain ⟨i, _, h⟩ := Finset.exists_mem_eq_sup' Finset.univ_nonempty v
      exact ⟨i, h⟩
  nan k v hk h := by
    unfold mcProp
    rw [dif_neg]
    rintro ⟨_, h2⟩
    have := h2 ⟨0, hk⟩
    rw [h] at this
    cases this

/-- One variable in `[-1, 1]`, one equality with residual NaN: the reported violation is `-1`. -/
example : maxViolation (me := 1) (mi := 0) mcProp ⟨fun _ : Fin 1 => -1, fun _ => 1, Fin.elim0, Fin.elim0⟩ (fun _ => none)
    (fun i => i.elim0) (fun _ => 0) = some (-1) := by decide +kernel

/-- The same with residual 5: the violation is 5. -/
example : maxViolation (me := 1) (mi := 0) mcProp ⟨fun _ : Fin 1 => -1, fun _ => 1, Fin.elim0, Fin.elim0⟩ (fun _ => some 5)
    (fun i => i.elim0) (fun _ => 0) = some 5 := by decide +kernel

/-- A step of size 1000 from a point with NaN cost, equality NaN: the test holds. -/
example : stepAndTest (me := 1) (mi := 0) mcProp Sqp.Settings.default ⟨fun _ : Fin 1 => -1, fun _ => 1, Fin.elim0, Fin.elim0⟩
    none (some 0) (fun _ => some 0) (fun _ => 0) (fun _ => 1000) 1000 1000 (fun _ _ => none) (fun _ i => i.elim0) = true := by
  decide +kernel

end PolyMPC.SqpNan
