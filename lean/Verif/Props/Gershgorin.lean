import Verif.Model.Gershgorin
import Verif.Props.SqpSparseStall

/-!
# Regularisation by Gershgorin discs (C181) and the sparse solver that uses it (C182)
-/

namespace PolyMPC.Gershgorin
open Matrix Spec Sparse Sparse.Csc Ocp QuasiNewton SqpSparse

set_option linter.unusedSectionVars false

variable {n : ℕ} {ab : ℝ → ℝ} {delta : ℝ}

/-- The diagonal entry that the loop leaves. -/
noncomputable def shifted (ab : ℝ → ℝ) (delta : ℝ) (H : Matrix (Fin n) (Fin n) ℝ) (i : Fin n) : ℝ :=
  if H i i - (∑ r, |H r i| - ab (H i i)) ≤ 0 then H i i + ((∑ r, |H r i| - ab (H i i) - H i i) + delta) else H i i

theorem fold_closed (l : List (Fin n)) (hl : l.Nodup) : ∀ H : Matrix (Fin n) (Fin n) ℝ, ∀ r c, l.foldl (denseStep ab delta) H r c
    = if r = c ∧ r ∈ l then shifted ab delta H r else H r c := by
  induction l with
  | nil => intro H r c; simp
  | cons i l ih =>
    intro H r c
    obtain ⟨hi, hl'⟩ := List.nodup_cons.1 hl
    rw [List.foldl_cons, ih hl']
    have h1 : ∀ r c, denseStep ab delta H i r c = if r = i ∧ c = i then shifted ab delta H i else H r c := by
      intro r c
      by_cases h0 : H i i - (∑ r, |H r i| - ab (H i i)) ≤ 0
      · have e : denseStep ab delta H i = Matrix.of fun r c => if r = i ∧ c = i then H r c + ((∑ r, |H r i| - ab (H i i) - H i i) + delta) else H r c := if_pos h0
        have e' : shifted ab delta H i = H i i + ((∑ r, |H r i| - ab (H i i) - H i i) + delta) := if_pos h0
        rw [e, e', Matrix.of_apply]
        split_ifs with h
        · rw [h.1, h.2]
        · rfl
      · have e : denseStep ab delta H i = H := if_neg h0
        have e' : shifted ab delta H i = H i i := if_neg h0
        rw [e, e']
        split_ifs with h
        · rw [h.1, h.2]
        · rfl
    by_cases hr : r = c ∧ r ∈ l
    · obtain ⟨rfl, hr⟩ := hr
      have hne : r ≠ i := fun e => hi (e ▸ hr)
      rw [if_pos ⟨rfl, hr⟩, if_pos ⟨rfl, List.mem_cons_of_mem _ hr⟩]
      have hc : ∀ r', denseStep ab delta H i r' r = H r' r := fun r' => by rw [h1, if_neg fun h => hne h.2]
      unfold shifted
      simp only [hc]
    · rw [if_neg hr, h1]
      by_cases h : r = i ∧ c = i
      · obtain ⟨rfl, rfl⟩ := h
        rw [if_pos ⟨rfl, rfl⟩, if_pos ⟨rfl, List.mem_cons_self ..⟩]
      · rw [if_neg h, if_neg]
        rintro ⟨rfl, hm⟩
        rcases List.mem_cons.1 hm with rfl | hm
        · exact h ⟨rfl, rfl⟩
        · exact hr ⟨rfl, hm⟩

/-- Only the diagonal changes. -/
theorem dense_closed (H : Matrix (Fin n) (Fin n) ℝ) (r c : Fin n) : dense ab delta H r c = if r = c then shifted ab delta H r else H r c := by
  unfold dense
  rw [fold_closed _ (List.nodup_finRange n)]
  simp

/-- A symmetric matrix whose diagonal entries exceed the sums of the absolute values of the other entries in the column is positive definite. -/
theorem dominant_spd {B : Matrix (Fin n) (Fin n) ℝ} (hs : Bᵀ = B) (hd : ∀ i, ∑ r ∈ Finset.univ.erase i, |B r i| < B i i) : SPD B := by
  refine ⟨hs, fun x hx => ?_⟩
  have hsym : ∀ i j, B i j = B j i := fun i j => (congrFun (congrFun hs i) j).symm
  have e1 : x ⬝ᵥ B *ᵥ x = ∑ i, (B i i * (x i * x i) + ∑ r ∈ Finset.univ.erase i, B r i * (x r * x i)) := by
    have : x ⬝ᵥ B *ᵥ x = ∑ i, ∑ r, B r i * (x r * x i) := by
      simp only [dotProduct, Matrix.mulVec, Finset.mul_sum]
      rw [Finset.sum_comm]
      exact Finset.sum_congr rfl fun i _ => Finset.sum_congr rfl fun r _ => by ring
    rw [this]
    exact Finset.sum_congr rfl fun i _ => (Finset.add_sum_erase _ _ (Finset.mem_univ i)).symm
  have e2 : ∀ i r, -(|B r i| * (x r * x r) / 2 + |B r i| * (x i * x i) / 2) ≤ B r i * (x r * x i) := by
    intro i r
    have h1 := abs_le.1 (le_refl |B r i|)
    nlinarith [mul_nonneg (sub_nonneg.2 h1.1) (mul_self_nonneg (x r + x i)), mul_nonneg (sub_nonneg.2 h1.2) (mul_self_nonneg (x r - x i)),
      mul_nonneg (sub_nonneg.2 h1.1) (mul_self_nonneg (x r - x i)), mul_nonneg (sub_nonneg.2 h1.2) (mul_self_nonneg (x r + x i))]
  have e3 : ∑ i, ∑ r ∈ Finset.univ.erase i, |B r i| * (x r * x r) / 2 = ∑ i, ∑ r ∈ Finset.univ.erase i, |B r i| * (x i * x i) / 2 := by
    have hswap : ∀ F : Fin n → Fin n → ℝ, ∑ i, ∑ r ∈ Finset.univ.erase i, F i r = ∑ i, ∑ r ∈ Finset.univ.erase i, F r i := by
      intro F
      have : ∀ F : Fin n → Fin n → ℝ, ∑ i, ∑ r ∈ Finset.univ.erase i, F i r = ∑ i, ∑ r, if r = i then 0 else F i r := fun F =>
        Finset.sum_congr rfl fun i _ => by rw [← Finset.add_sum_erase _ _ (Finset.mem_univ i), if_pos rfl, zero_add]; exact Finset.sum_congr rfl fun r hr => by rw [if_neg (Finset.ne_of_mem_erase hr)]
      rw [this, this, Finset.sum_comm]
      exact Finset.sum_congr rfl fun i _ => Finset.sum_congr rfl fun r _ => by
        by_cases h : r = i
        · rw [if_pos h, if_pos h.symm]
        · rw [if_neg h, if_neg (Ne.symm h)]
    rw [hswap]
    exact Finset.sum_congr rfl fun i _ => Finset.sum_congr rfl fun r _ => by rw [hsym]
  have e4 : ∑ i, (B i i - ∑ r ∈ Finset.univ.erase i, |B r i|) * (x i * x i) ≤ x ⬝ᵥ B *ᵥ x := by
    have h1 : ∑ i, (B i i - ∑ r ∈ Finset.univ.erase i, |B r i|) * (x i * x i)
        = ∑ i, (B i i * (x i * x i)) - (∑ i, ∑ r ∈ Finset.univ.erase i, |B r i| * (x r * x r) / 2 + ∑ i, ∑ r ∈ Finset.univ.erase i, |B r i| * (x i * x i) / 2) := by
      rw [e3, ← Finset.sum_add_distrib, ← Finset.sum_sub_distrib]
      refine Finset.sum_congr rfl fun i _ => ?_
      rw [← Finset.sum_add_distrib, sub_mul, Finset.sum_mul]
      congr 1
      exact Finset.sum_congr rfl fun r _ => by ring
    rw [h1, e1, Finset.sum_add_distrib]
    have h2 : -(∑ i, ∑ r ∈ Finset.univ.erase i, |B r i| * (x r * x r) / 2 + ∑ i, ∑ r ∈ Finset.univ.erase i, |B r i| * (x i * x i) / 2)
        ≤ ∑ i, ∑ r ∈ Finset.univ.erase i, B r i * (x r * x i) := by
      rw [← Finset.sum_add_distrib, ← Finset.sum_neg_distrib]
      refine Finset.sum_le_sum fun i _ => ?_
      rw [← Finset.sum_add_distrib, ← Finset.sum_neg_distrib]
      exact Finset.sum_le_sum fun r _ => e2 i r
    linarith
  refine lt_of_lt_of_le ?_ e4
  obtain ⟨i, hi⟩ := Function.ne_iff.1 hx
  refine Finset.sum_pos' (fun j _ => mul_nonneg (sub_pos.2 (hd j)).le (mul_self_nonneg _)) ⟨i, Finset.mem_univ i, mul_pos (sub_pos.2 (hd i)) (mul_self_pos.2 hi)⟩

theorem shifted_gt (hab : ∀ x, ab x ≤ |x|) (hd : 0 < delta) (H : Matrix (Fin n) (Fin n) ℝ) (i : Fin n) : ∑ r ∈ Finset.univ.erase i, |H r i| < shifted ab delta H i := by
  have h := Finset.add_sum_erase Finset.univ (fun r => |H r i|) (Finset.mem_univ i)
  have h1 := hab (H i i)
  unfold shifted
  split_ifs with h0 <;> linarith

/-- **C181.** The regularised matrix of a symmetric one is symmetric and positive definite, differs from it only on the diagonal, and is the same matrix if all Gershgorin discs were in the positive half
already (with the absolute value of floating-point numbers). -/
theorem regularised_spd (hab : ∀ x, ab x ≤ |x|) (hd : 0 < delta) {H : Matrix (Fin n) (Fin n) ℝ} (hs : Hᵀ = H) :
    SPD (dense ab delta H) ∧ (∀ r c, r ≠ c → dense ab delta H r c = H r c) ∧
    ((∀ x, ab x = |x|) → (∀ i, ∑ r ∈ Finset.univ.erase i, |H r i| < H i i) → dense ab delta H = H) := by
  have hoff : ∀ r c, r ≠ c → dense ab delta H r c = H r c := fun r c h => by rw [dense_closed, if_neg h]
  refine ⟨dominant_spd ?_ fun i => ?_, hoff, fun he hdom => ?_⟩
  · funext r c
    rw [transpose_apply]
    by_cases h : r = c
    · rw [h]
    · rw [hoff _ _ h, hoff _ _ (Ne.symm h)]
      exact congrFun (congrFun hs r) c
  · rw [dense_closed, if_pos rfl, Finset.sum_congr rfl fun r hr => by rw [hoff r i (Finset.ne_of_mem_erase hr)]]
    exact shifted_gt hab hd H i
  · funext r c
    rw [dense_closed]
    split_ifs with h
    · subst h
      have h1 := Finset.add_sum_erase Finset.univ (fun r' => |H r' r|) (Finset.mem_univ r)
      have h2 := hdom r
      unfold shifted
      rw [he, if_neg]
      rw [not_le]
      have : |H r r| + ∑ x ∈ Finset.univ.erase r, |H x r| - |H r r| = ∑ x ∈ Finset.univ.erase r, |H x r| := by ring
      rw [← h1, this]
      linarith
    · rfl

theorem absInt_le (x : ℝ) : absInt x ≤ |x| := by
  unfold absInt
  split_ifs with h
  · rw [abs_of_nonneg h, abs_of_nonneg (by exact_mod_cast Int.floor_nonneg.2 h)]
    exact Int.floor_le x
  · have h' := (not_le.1 h).le
    rw [abs_of_nonpos h', abs_of_nonpos (by exact_mod_cast Int.ceil_le.2 (by simpa using h'))]
    linarith [Int.le_ceil x]

/-- An indefinite matrix. -/
example : dense (fun x => |x|) (1 / 100) !![0, 1; 1, 5] = !![101 / 100, 1; 1, 5] := by
  funext r c
  rw [dense_closed]
  unfold shifted
  fin_cases r <;> fin_cases c <;> norm_num [Fin.sum_univ_two]

/-! ### The sparse version -/

variable {d : Dims}

theorem canon_sum (m : ℕ) (p : ℕ → Bool) (f : ℕ → ℝ) : ((canon m p f).map fun e => |e.2|).sum = ∑ r ∈ Finset.range m, if p r = true then |f r| else 0 := by
  induction m with
  | zero => rfl
  | succ m ih =>
    rw [Finset.sum_range_succ, ← ih]
    unfold canon
    rw [List.range_succ, List.filter_append, List.map_append, List.map_append, List.sum_append]
    congr 1
    by_cases h : p m = true
    · rw [if_pos h, List.filter_singleton, h]
      simp
    · rw [if_neg h, List.filter_singleton, Bool.eq_false_iff.2 h]
      simp

/-- The sum of the absolute values of the stored entries. -/
theorem col_sum {H : Csc ℝ} {M : ℕ → ℕ → ℝ} (h : HesForm d H M) {i : ℕ} (hi : i < d.VAR) : ((H.col i).map fun e => |e.2|).sum = ∑ r : Fin d.VAR, |H.coeff r i| := by
  rw [h.holds.col_eq hi, canon_sum, Finset.sum_range]
  refine Finset.sum_congr rfl fun r _ => ?_
  rw [h.holds.coeff_eq hi]
  split_ifs
  · rfl
  · rw [abs_zero]

theorem sparseStep_dense {H : Csc ℝ} {M : ℕ → ℕ → ℝ} (h : HesForm d H M) (i : Fin d.VAR) :
    ∃ H' M', sparseStep ab delta H i = some H' ∧ HesForm d H' M' ∧ hesMat d H' = denseStep ab delta (hesMat d H) i := by
  have hs := col_sum h i.2
  by_cases h0 : hesMat d H i i - (∑ r, |hesMat d H r i| - ab (hesMat d H i i)) ≤ 0
  · have e : denseStep ab delta (hesMat d H) i = Matrix.of fun r c => if r = i ∧ c = i then hesMat d H r c + ((∑ r, |hesMat d H r i| - ab (hesMat d H i i) - hesMat d H i i) + delta)
        else hesMat d H r c := if_pos h0
    obtain ⟨H', e1, e2, e3, e4⟩ := h.holds.coeffAdd ((∑ r, |hesMat d H r i| - ab (hesMat d H i i) - hesMat d H i i) + delta) i.2 (hesPat_diag i.2)
    refine ⟨H', _, ?_, ⟨by rw [e2]; exact h.start, e4⟩, ?_⟩
    · unfold sparseStep
      rw [hs]
      exact (if_pos h0).trans e1
    · rw [e]
      funext r c
      show H'.coeff r c = if r = i ∧ c = i then H.coeff r c + _ else H.coeff r c
      rw [e4.coeff_eq c.2, h.holds.coeff_eq c.2]
      by_cases hrc : r = i ∧ c = i
      · obtain ⟨rfl, rfl⟩ := hrc
        rw [if_pos (hesPat_diag (Fin.isLt _)), if_pos (show (c : ℕ) = c ∧ (c : ℕ) = c from ⟨rfl, rfl⟩), if_pos (show c = c ∧ c = c from ⟨rfl, rfl⟩),
          if_pos (hesPat_diag (Fin.isLt _))]
      · rw [if_neg hrc]
        have : ¬ ((c : ℕ) = i ∧ (r : ℕ) = i) := fun h => hrc ⟨Fin.ext h.2, Fin.ext h.1⟩
        rw [if_neg this]
  · refine ⟨H, M, ?_, h, (if_neg h0).symm⟩
    unfold sparseStep
    rw [hs]
    exact if_neg h0

theorem sparseFold_dense (l : List (Fin d.VAR)) : ∀ {H : Csc ℝ} {M : ℕ → ℕ → ℝ}, HesForm d H M →
    ∃ H' M', (l.map Fin.val).foldlM (sparseStep ab delta) H = some H' ∧ HesForm d H' M' ∧ hesMat d H' = l.foldl (denseStep ab delta) (hesMat d H) := by
  induction l with
  | nil => exact fun {H M} h => ⟨H, M, rfl, h, rfl⟩
  | cons i l ih =>
    intro H M h
    obtain ⟨H1, M1, e1, h1, d1⟩ := sparseStep_dense (ab := ab) (delta := delta) h i
    obtain ⟨H2, M2, e2, h2, d2⟩ := ih h1
    refine ⟨H2, M2, ?_, h2, ?_⟩
    · rw [List.map_cons, List.foldlM_cons, e1]
      exact e2
    · rw [d2, d1]
      rfl

/-- The sparse regularisation does to the sparse Hessian what the dense one does to the dense Hessian. -/
theorem regFits_gershgorin (ab : ℝ → ℝ) (delta : ℝ) : RegFits (d := d) (sparse ab delta d.VAR) (dense ab delta) := by
  intro H M h
  obtain ⟨H', M', e, h'⟩ := sparseFold_dense (ab := ab) (delta := delta) (List.finRange d.VAR) h
  refine ⟨H', M', ?_, h'⟩
  unfold sparse
  rw [← List.map_coe_finRange_eq_range]
  exact e

end PolyMPC.Gershgorin

namespace PolyMPC.Sqp
open Matrix Spec QuasiNewton

variable {K : Type*} [Field K] [LinearOrder K] [IsStrictOrderedRing K] {n me mi : ℕ} {prec : Precond K n (me + mi)} {qps : QPSolver K n (me + mi)}

/-- Where a run stands after an iteration that does not end it. -/
theorem solve_from_visited [NeZero n] {env : Env K n me mi prec qps} {st v : State K n me mi prec qps} (h : Visited env st v) (ht : terminated env v = false) :
    solve env st = loop env (env.cfg.maxIter - v.iter).toNat v := by
  induction h with
  | @first s hf =>
    rw [solve_eq, hf, Option.bind_some, ht, (firstPass_spec hf).1]
    rfl
  | @next s s' hv ht' hlt hp ih =>
    rw [ih ht']
    obtain ⟨k, hk⟩ : ∃ k, (env.cfg.maxIter - s.iter).toNat = k + 1 := ⟨(env.cfg.maxIter - s.iter).toNat - 1, by omega⟩
    have hi := (pass_spec hp).1
    have hk' : (env.cfg.maxIter - s'.iter).toNat = k := by omega
    rw [hk, loop_succ, if_pos hlt, hp, Option.bind_some, ht, hk']
    rfl

/-- The same for an update that fails exactly for the steps in `Z`. -/
theorem solve_none_iff_of [NeZero n] {Z : (Fin n → K) → Prop} {env : Env K n me mi prec qps} (hl : LawfulPrecond prec) (hp : ∀ m qp, ∃ r, prec.compute m qp = some r) (hu : KeepsSPD env)
    (hz : ∀ H s y, SPD H → (env.hessUpdate H s y = none ↔ Z s)) {st : State K n me mi prec qps} (h0 : SPD (env.regularise (env.prob.lagHess st.x st.lam))) :
    solve env st = none ↔ ∃ v, Visited env st v ∧ terminated env v = false ∧ v.iter < env.cfg.maxIter ∧ Z v.stepPrev := by
  have hq : ∀ s : State K n me mi prec qps, ∃ s', qpStep env s = some s' := by
    intro s
    obtain ⟨r, hr⟩ := hp s.precMem s.qp
    exact ⟨_, by rw [qpStep, hr]; rfl⟩
  have hpass : ∀ v, SPD v.qp.H → (pass env v = none ↔ Z v.stepPrev) := by
    intro v hv
    have hz' := hz v.qp.H v.stepPrev (env.prob.lagGrad v.x v.lam - v.lagGradient) hv
    rw [← hz']
    unfold pass updateLinearisation
    dsimp only
    rcases env.hessUpdate v.qp.H v.stepPrev (env.prob.lagGrad v.x v.lam - v.lagGradient) with _ | H
    · exact ⟨fun _ => rfl, fun _ => rfl⟩
    · refine ⟨fun h => ?_, fun h => by simp at h⟩
      rw [Option.map_some, Option.bind_some, Option.map_eq_none_iff] at h
      obtain ⟨s', hs'⟩ := hq { v with iter := v.iter + 1, lagGradient := env.prob.lagGrad v.x v.lam, qp := formQP env.bd v.x H (env.prob.costGrad v.x) (env.prob.jac v.x) (env.prob.constr v.x) }
      rw [hs'] at h
      simp at h
  constructor
  · have hloop : ∀ fuel v, Visited env st v → terminated env v = false → loop env fuel v = none →
        ∃ v, Visited env st v ∧ terminated env v = false ∧ v.iter < env.cfg.maxIter ∧ Z v.stepPrev := by
      intro fuel
      induction fuel with
      | zero => intro v _ _ h; simp [loop] at h
      | succ k ih =>
        intro v hv ht h
        rw [loop_succ] at h
        split_ifs at h with hlt
        rcases e : pass env v with _ | s
        · exact ⟨v, hv, ht, hlt, (hpass v (visited_spd hl hu h0 hv)).1 e⟩
        · rw [e, Option.bind_some] at h
          split_ifs at h with ht'
          exact ih s (.next hv ht hlt e) (by simpa using ht') h
    intro h
    obtain ⟨s, hs⟩ := hq (linearise env (start st))
    have hf : firstPass env st = some (measure env s) := by rw [firstPass, hs]; rfl
    rw [solve_eq, hf, Option.bind_some] at h
    split_ifs at h with ht
    exact hloop _ _ (.first hf) (by simpa using ht) h
  · rintro ⟨v, hv, ht, hlt, h⟩
    rw [solve_from_visited hv ht]
    obtain ⟨k, hk⟩ : ∃ k, (env.cfg.maxIter - v.iter).toNat = k + 1 := ⟨(env.cfg.maxIter - v.iter).toNat - 1, by omega⟩
    rw [hk, loop_succ, if_pos hlt, (hpass v (visited_spd hl hu h0 hv)).2 h]
    rfl

/-- If the Hessian update keeps positive definite matrices positive definite and fails exactly for the zero step, a solve that starts with a positive definite Hessian fails exactly if an iteration before the last one
took the zero step. -/
theorem solve_none_iff [NeZero n] {env : Env K n me mi prec qps} (hl : LawfulPrecond prec) (hp : ∀ m qp, ∃ r, prec.compute m qp = some r) (hu : KeepsSPD env)
    (hz : ∀ H s y, SPD H → (env.hessUpdate H s y = none ↔ s = 0)) {st : State K n me mi prec qps} (h0 : SPD (env.regularise (env.prob.lagHess st.x st.lam))) :
    solve env st = none ↔ ∃ v, Visited env st v ∧ terminated env v = false ∧ v.iter < env.cfg.maxIter ∧ v.stepPrev = 0 :=
  solve_none_iff_of hl hp hu hz h0

end PolyMPC.Sqp

namespace PolyMPC.SqpSparse
open Ocp MpcSqp Sparse Sparse.Csc Spec AdmmSparse Matrix QuasiNewton

set_option linter.unusedSectionVars false

/-! ### Symmetry of the Hessian -/

variable {d : Dims} {q : QpConf d} {c : Conf d} {f g : ℕ → ℕ → (Fin d.M → ℝ) → ℝ} {L : ℕ → (Fin d.M → ℝ) → ℝ} {m : (Fin d.M → ℝ) → ℝ}

theorem lagHess_symm {A : Approx ℝ} {cb : Cbs d ℝ} {o : Obj d ℝ} {sc : Scratch d} (hR : Regular d A) (hx : Exact cb o.time f g L m) (x : Fin d.VAR → ℝ) (lam) :
    ((problem A cb o sc).lagHess x lam)ᵀ = (problem A cb o sc).lagHess x lam := by
  obtain ⟨-, -, -, -, -, -, -, h⟩ := problem_hessian (sc := sc) hR.S hR.N hR.skew hR.U hR.VX' hx x lam
  have hz : ∀ i j : Fin d.VAR, mayerErr d (hesOf (cb.mayerAD2 (node d (Spec.ext x) 0) (o.time 0) (zero2 d.M))) i j = 0 := fun i j => by
    unfold mayerErr
    have := hR.P
    rw [if_neg (by unfold Dims.VAR; omega)]
  simp only [hz, sub_zero] at h
  funext i j
  exact h.symm j i

/-! ### The runs of the sparse solver -/

/-- Without parameters the update keeps positive definite matrices positive definite and fails for the zero step only. -/
theorem blockBfgs_spd (hP : d.NP = 0) {H : Matrix (Fin d.VAR) (Fin d.VAR) ℝ} (hH : SPD H) {s : Fin d.VAR → ℝ} (hs : s ≠ 0) (y : Fin d.VAR → ℝ) :
    ∃ H', blockBfgs d H s y = some H' ∧ SPD H' := by
  have ht := target_pos hH hs y
  obtain ⟨B', hB, hS⟩ := bfgs_keeps_spd ht hH s y
  obtain ⟨r, sr, hp, hc⟩ := bfgsUpdate_some hB
  obtain ⟨e1, e2, e3⟩ := dampedPair_spec hp
  have hsr : sr = targetCurvature H s y := by
    unfold targetCurvature
    split_ifs with hc
    · rw [e1]; exact (e3 hc).1
    · rw [e1, e2 (not_lt.mp hc)]
  rcases hc with ⟨h, -⟩ | ⟨-, h1, h2, rfl⟩
  · exact absurd h (by rw [hsr]; exact lt_irrefl _)
  refine ⟨_, ?_, spd_blocks hS (fun i => nodeOf d i) fun i j => rfl⟩
  unfold blockBfgs maskedBfgs
  rw [if_neg h1, hp, Option.bind_some, if_neg h2]
  congr 1
  funext i j
  show (if Linked d i j then _ else _) = if nodeOf d i = nodeOf d j then _ else _
  have hi := i.2
  have hj := j.2
  have hV : d.VAR = d.NX * d.NN + d.NU * d.NN + d.NP := rfl
  by_cases h : nodeOf d i = nodeOf d j
  · rw [if_pos h, if_pos (show Linked d i j from Or.inr (Or.inr h))]
    show _ = H i j + -(outer _ _ i j) / _ + outer r r i j / sr
    unfold outer
    simp only [Matrix.of_apply]
    ring
  · rw [if_neg h, if_neg]
    unfold Linked
    push Not
    exact ⟨by omega, by omega, h⟩

variable [NeZero d.VAR]

theorem denseEnv_keeps (hP : d.NP = 0) (reg) (o : Obj d ℝ) : Sqp.KeepsSPD (denseEnv c q reg o) := by
  intro H s y H' hH hs
  have hs' : blockBfgs d H s y = some H' := hs
  have hne : s ≠ 0 := by
    rintro rfl
    rw [blockBfgs_zero] at hs'
    simp at hs'
  obtain ⟨H2, e2, hS⟩ := blockBfgs_spd hP hH hne y
  rw [hs'] at e2
  rw [Option.some.inj e2]
  exact hS

theorem denseEnv_none (hP : d.NP = 0) (reg) (o : Obj d ℝ) (H s y) (hH : SPD H) : (denseEnv c q reg o).hessUpdate H s y = none ↔ s = 0 := by
  show blockBfgs d H s y = none ↔ s = 0
  constructor
  · intro hn
    by_contra hne
    obtain ⟨H2, e2, -⟩ := blockBfgs_spd hP hH hne y
    rw [e2] at hn
    simp at hn
  · rintro rfl
    exact blockBfgs_zero d H y

/-- The statement for the dense solver the sparse one agrees with. -/
theorem denseEnv_convex (hP : d.NP = 0) (reg) (o : Obj d ℝ) {s : q.Base} (h0 : SPD (reg ((problem c.A c.cb o c.sc).lagHess s.x s.lam))) :
    (∀ v, Sqp.Visited (denseEnv c q reg o) s v → SPD v.qp.H) ∧ (∀ r, Sqp.solve (denseEnv c q reg o) s = some r → SPD r.qp.H) ∧
    (Sqp.solve (denseEnv c q reg o) s = none ↔ ∃ v, Sqp.Visited (denseEnv c q reg o) s v ∧ Sqp.terminated (denseEnv c q reg o) v = false ∧ v.iter < c.cfg.maxIter ∧ v.stepPrev = 0) := by
  have hv : ∀ v, Sqp.Visited (denseEnv c q reg o) s v → SPD v.qp.H := fun v h => Sqp.visited_spd (Sqp.identity_lawful _) (denseEnv_keeps hP reg o) h0 h
  refine ⟨hv, fun r e => ?_, Sqp.solve_none_iff (Sqp.identity_lawful _) (fun m qp => ⟨_, rfl⟩) (denseEnv_keeps hP reg o) (denseEnv_none hP reg o) h0⟩
  obtain ⟨v, hvis, ⟨-, hr⟩ | ⟨-, -, hr⟩⟩ := Sqp.solve_cases e
  · rw [hr]; exact hv v hvis
  · rw [hr]; exact hv v hvis

/-- **C182.** After any solves on a sparse solver object with the Gershgorin regularisation, the next solve of a problem without parameters has only strictly convex QPs, and it fails exactly if an iteration that
does not end the solve takes a step of length zero. -/
theorem sparse_convex {A : Approx ℝ} {ab : ℝ → ℝ} {delta : ℝ} (hab : ∀ x, ab x ≤ |x|) (hdel : 0 < delta) (hR : Regular d A) (hb : q.both = false)
    (hI : q.cfg.adaptiveRho = true → q.cfg.adaptiveRhoInterval ≠ 0) {st st1 : State q} (hF : Fresh st) {l : List (Call d)} {k : Call d}
    (hl : ∀ k ∈ l, k.Good A (Gershgorin.dense ab delta)) (hk : k.Good A (Gershgorin.dense ab delta)) (e1 : sparseRun l st = some st1) :
    (∀ v, Sqp.Visited (denseEnv k.c q (Gershgorin.dense ab delta) (k.obj st.o)) { st1.s with x := k.xg, lam := k.lg } v → SPD v.qp.H) ∧
    (∀ st2, solveFrom k.c { st1 with o := k.obj st1.o } k.xg k.lg = some st2 → SPD st2.s.qp.H) ∧
    (solveFrom k.c { st1 with o := k.obj st1.o } k.xg k.lg = none ↔
      ∃ v, Sqp.Visited (denseEnv k.c q (Gershgorin.dense ab delta) (k.obj st.o)) { st1.s with x := k.xg, lam := k.lg } v ∧
        Sqp.terminated (denseEnv k.c q (Gershgorin.dense ab delta) (k.obj st.o)) v = false ∧ v.iter < k.c.cfg.maxIter ∧ v.stepPrev = 0) := by
  obtain ⟨rfl, hreg, f, g, L, m, hx⟩ := hk
  have h0 := (run_match hR hb hI st.o l hl st ⟨Reach.init hF.Je hF.Ji hF.J, Or.inl hF.H, by
    rw [hF.kkt]
    exact ⟨fun _ => rfl, fun _ _ _ => rfl⟩, fun h => by rw [hF.reuse] at h; simp at h⟩).2 st1 e1
  have e := (solve_match (o0 := k.obj st.o) hR hreg hb hI hx (st := { st1 with o := k.obj st1.o, s := { st1.s with x := k.xg, lam := k.lg } }) ⟨rfl, rfl, rfl⟩
    ⟨h0.jac, h0.hes, h0.clean, h0.reuse⟩).1
  have e' : (solveFrom k.c { st1 with o := k.obj st1.o } k.xg k.lg).map State.s
      = Sqp.solve (denseEnv k.c q (Gershgorin.dense ab delta) (k.obj st.o)) { st1.s with x := k.xg, lam := k.lg } := e
  obtain ⟨c1, c2, c3⟩ := denseEnv_convex (c := k.c) (q := q) hR.P (Gershgorin.dense ab delta) (k.obj st.o) (s := { st1.s with x := k.xg, lam := k.lg })
    (Gershgorin.regularised_spd hab hdel (lagHess_symm hR hx k.xg k.lg)).1
  refine ⟨c1, fun st2 e2 => c2 st2.s ?_, ?_⟩
  · rw [← e', e2, Option.map_some]
  · rw [← c3, ← e', Option.map_eq_none_iff]

/-- The call of the example with the regularisation. -/
noncomputable def lqGersh (bd : Sqp.Bounds ℝ lqDims.VAR lqDims.NINEQ) (t : ℝ) (xg : Fin lqDims.VAR → ℝ) (lg : Sqp.Dual ℝ lqDims.VAR lqDims.NEQ lqDims.NINEQ) : Call lqDims :=
  ⟨{ lqConf bd with regS := Gershgorin.sparse abs (1 / 1000) lqDims.VAR }, 0, t, lqWrap.ocp.time, xg, lg⟩

theorem lqGersh_good (bd t xg lg) : (lqGersh bd t xg lg).Good (chebApprox 1) (Gershgorin.dense abs (1 / 1000)) :=
  ⟨rfl, Gershgorin.regFits_gershgorin _ _, _, _, _, _, lq_exact _⟩

/-- The hypotheses hold for the example, and the QPs are strictly convex also after a first solve. -/
example (lin) {st1 st2 : State (lqQp lin)} (xg lg) (e1 : sparseRun [lqGersh (bounds lqWrap) 2 0 0] (lqFresh lin) = some st1)
    (e2 : solveFrom (lqGersh (bounds lqWrap) 1 xg lg).c { st1 with o := (lqGersh (bounds lqWrap) 1 xg lg).obj st1.o } xg lg = some st2) : SPD st2.s.qp.H :=
  (sparse_convex (fun _ => le_rfl) (by norm_num) lq_regular rfl (fun h => by simp [lqQp, QPBase.Settings.default] at h) (lqFresh_fresh lin)
    (fun k hk => by rw [List.mem_singleton.1 hk]; exact lqGersh_good _ _ _ _) (lqGersh_good _ _ _ _) e1).2.1 st2 e2

end PolyMPC.SqpSparse
