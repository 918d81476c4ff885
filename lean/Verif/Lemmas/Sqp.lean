import Verif.Model.Sqp
import Verif.Spec.NLP
import Mathlib.Algebra.BigOperators.Fin
import Mathlib.Algebra.BigOperators.Field
import Mathlib.Algebra.Order.BigOperators.Ring.Finset
import Mathlib.Tactic.Linarith
import Mathlib.Tactic.LinearCombination
import Mathlib.Tactic.Positivity
import Mathlib.Tactic.FieldSimp

/-!
# Lemmas about the SQP model
-/

set_option linter.unusedSectionVars false

namespace PolyMPC.Sqp
open Matrix PolyMPC.Spec

universe u

variable {K : Type u} [Field K] [LinearOrder K] [IsStrictOrderedRing K] {n me mi : ℕ}
variable {prec : Precond K n (me + mi)} {qps : QPSolver K n (me + mi)}

/-- The state in which `solve` starts its first iteration. -/
def start (st : State K n me mi prec qps) : State K n me mi prec qps :=
  { st with status := .MAX_ITER_EXCEEDED, qpIter := 0, iter := 1 }

/-- The first iteration of `solve`. -/
def firstPass [NeZero n] (env : Env K n me mi prec qps) (st : State K n me mi prec qps) :
    Option (State K n me mi prec qps) :=
  (qpStep env (linearise env (start st))).map (measure env)

/-- One further iteration of `solve`. -/
def pass [NeZero n] (env : Env K n me mi prec qps) (st : State K n me mi prec qps) :
    Option (State K n me mi prec qps) :=
  (updateLinearisation env { st with iter := st.iter + 1 }).bind fun st1 =>
    (qpStep env st1).map fun st2 => measure env (callback env st2)

theorem loop_succ [NeZero n] (env : Env K n me mi prec qps) (fuel : ℕ) (st : State K n me mi prec qps) :
    loop env (fuel + 1) st = if st.iter < env.cfg.maxIter then
      (pass env st).bind fun s => if terminated env s then some { s with status := .SOLVED } else loop env fuel s
      else some st := by
  unfold pass
  rw [loop]
  split_ifs with h
  · cases h1 : updateLinearisation env { st with iter := st.iter + 1 } with
    | none => rfl
    | some st1 =>
      simp only [Option.bind_some]
      cases h2 : qpStep env st1 with
      | none => rfl
      | some st2 => rfl
  · rfl

theorem solve_eq [NeZero n] (env : Env K n me mi prec qps) (st : State K n me mi prec qps) :
    solve env st = (firstPass env st).bind fun s =>
      if terminated env s then some { s with status := .SOLVED } else loop env (env.cfg.maxIter - 1).toNat s := by
  unfold solve firstPass
  change (qpStep env (linearise env (start st))).bind _ = _
  cases h : qpStep env (linearise env (start st)) with
  | none => rfl
  | some s => rfl

/-- What one QP step does, with the quantities it computes named: the scaled QP, the QP solver's output and the step. -/
theorem qpStep_spec {env : Env K n me mi prec qps} {st s : State K n me mi prec qps} (h : qpStep env st = some s) :
    ∃ mem scaled p lamK alpha logged, prec.compute st.precMem st.qp = some (mem, scaled) ∧
      (p, lamK) = prec.unscalePair mem ((qps.solve st.qpMem scaled).2.1, (qps.solve st.qpMem scaled).2.2.1) ∧
      s.qp = prec.unscale mem scaled ∧
      (alpha, logged) = env.stepSize s.qp.h lamK st.x p st.cost ∧
      s.lamK = lamK ∧ s.cost = logged ∧ s.x = (fun i => st.x i + alpha * p i) ∧
      s.lam = (fun i => st.lam i + alpha * (lamK - st.lam) i) ∧ s.stepPrev = (fun i => alpha * p i) ∧
      s.primalNorm = alpha * infNorm p ∧ s.dualNorm = alpha * infNorm (lamK - st.lam) ∧
      s.iter = st.iter ∧ s.status = st.status ∧ s.callbacks = st.callbacks ∧ s.lagGradient = st.lagGradient ∧
      s.precMem = mem ∧ s.qpMem = (qps.solve st.qpMem scaled).1 := by
  unfold qpStep at h
  rw [Option.map_eq_some_iff] at h
  obtain ⟨⟨mem, scaled⟩, h1, h2⟩ := h
  subst h2
  exact ⟨mem, scaled, _, _, _, _, h1, rfl, rfl, rfl, rfl, rfl, rfl, rfl, rfl, rfl, rfl, rfl, rfl, rfl, rfl, rfl, rfl⟩

theorem firstPass_spec [NeZero n] {env : Env K n me mi prec qps} {st s : State K n me mi prec qps}
    (h : firstPass env st = some s) : s.iter = 1 ∧ s.status = .MAX_ITER_EXCEEDED ∧ s.callbacks = st.callbacks ∧
      s.maxViolation = maxConstraintsViolation env.prob env.bd s.x := by
  unfold firstPass at h
  rw [Option.map_eq_some_iff] at h
  obtain ⟨s1, h1, rfl⟩ := h
  obtain ⟨_, _, _, _, _, _, -, -, -, -, -, -, -, -, -, -, -, h2, h3, h4, -⟩ := qpStep_spec h1
  exact ⟨h2, h3, h4, rfl⟩

theorem updateLinearisation_spec {env : Env K n me mi prec qps} {st s : State K n me mi prec qps}
    (h : updateLinearisation env st = some s) :
    ∃ H, env.hessUpdate st.qp.H st.stepPrev (env.prob.lagGrad st.x st.lam - st.lagGradient) = some H ∧
      s = { st with
        lagGradient := env.prob.lagGrad st.x st.lam
        qp := formQP env.bd st.x H (env.prob.costGrad st.x) (env.prob.jac st.x) (env.prob.constr st.x) } := by
  unfold updateLinearisation at h
  simp only at h
  rw [Option.map_eq_some_iff] at h
  obtain ⟨H, h1, h2⟩ := h
  exact ⟨H, h1, h2.symm⟩

/-- The parts of one further iteration. -/
theorem pass_parts [NeZero n] {env : Env K n me mi prec qps} {st s : State K n me mi prec qps}
    (h : pass env st = some s) :
    ∃ s1 s2, updateLinearisation env { st with iter := st.iter + 1 } = some s1 ∧ qpStep env s1 = some s2 ∧
      s = measure env (callback env s2) := by
  unfold pass at h
  rw [Option.bind_eq_some_iff] at h
  obtain ⟨s1, h1, h2⟩ := h
  rw [Option.map_eq_some_iff] at h2
  obtain ⟨s2, h3, h4⟩ := h2
  exact ⟨s1, s2, h1, h3, h4.symm⟩

theorem callback_fields (env : Env K n me mi prec qps) (s : State K n me mi prec qps) :
    (callback env s).x = s.x ∧ (callback env s).lam = s.lam ∧ (callback env s).iter = s.iter ∧
      (callback env s).status = s.status ∧ (callback env s).primalNorm = s.primalNorm ∧
      (callback env s).dualNorm = s.dualNorm ∧ (callback env s).qp = s.qp ∧ (callback env s).stepPrev = s.stepPrev ∧
      (callback env s).lamK = s.lamK ∧ (callback env s).lagGradient = s.lagGradient ∧
      (callback env s).callbacks = s.callbacks ++ (if env.cfg.callback then [s.x] else []) := by
  unfold callback
  by_cases h : env.cfg.callback = true
  · simp only [if_pos h, and_self]
  · simp only [if_neg h, List.append_nil, and_self]

theorem pass_spec [NeZero n] {env : Env K n me mi prec qps} {st s : State K n me mi prec qps}
    (h : pass env st = some s) : s.iter = st.iter + 1 ∧ s.status = st.status ∧
      s.callbacks = st.callbacks ++ (if env.cfg.callback then [s.x] else []) ∧
      s.maxViolation = maxConstraintsViolation env.prob env.bd s.x := by
  obtain ⟨s1, s2, h1, h2, rfl⟩ := pass_parts h
  obtain ⟨H, -, rfl⟩ := updateLinearisation_spec h1
  obtain ⟨_, _, _, _, _, _, -, -, -, -, -, -, -, -, -, -, -, k2, k3, k4, -⟩ := qpStep_spec h2
  obtain ⟨c1, -, c3, c4, -, -, -, -, -, -, c5⟩ := callback_fields env s2
  refine ⟨c3.trans k2, c4.trans k3, ?_, rfl⟩
  change (callback env s2).callbacks = _ ++ (if _ then [(callback env s2).x] else [])
  rw [c5, c1, k4]

/-- A `fuel` of `maxIter - iter` is enough for the loop: more does not change the result. -/
theorem loop_fuel [NeZero n] (env : Env K n me mi prec qps) (fuel : ℕ) (st : State K n me mi prec qps)
    (h : (env.cfg.maxIter - st.iter).toNat ≤ fuel) :
    loop env fuel st = loop env (env.cfg.maxIter - st.iter).toNat st := by
  induction fuel generalizing st with
  | zero => rw [Nat.le_zero.mp h]
  | succ fuel ih =>
    by_cases hlt : st.iter < env.cfg.maxIter
    · obtain ⟨k, hk⟩ : ∃ k, (env.cfg.maxIter - st.iter).toNat = k + 1 :=
        ⟨(env.cfg.maxIter - st.iter).toNat - 1, by omega⟩
      rw [hk, loop_succ, loop_succ, if_pos hlt, if_pos hlt]
      cases hp : pass env st with
      | none => rfl
      | some s =>
        have hs := (pass_spec hp).1
        simp only [Option.bind_some]
        by_cases ht : terminated env s = true
        · rw [if_pos ht, if_pos ht]
        · rw [if_neg ht, if_neg ht, ih s (by rw [hs]; omega)]
          congr 1
          rw [hs]; omega
    · rw [loop_succ, if_neg hlt]
      have : (env.cfg.maxIter - st.iter).toNat = 0 := by omega
      rw [this, loop]

/-- The states at the end of the iterations of `solve env st`. -/
inductive Visited [NeZero n] (env : Env K n me mi prec qps) (st : State K n me mi prec qps) :
    State K n me mi prec qps → Prop
  | first {s} : firstPass env st = some s → Visited env st s
  | next {s s'} : Visited env st s → terminated env s = false → s.iter < env.cfg.maxIter → pass env s = some s' →
      Visited env st s'

theorem loop_cases [NeZero n] {env : Env K n me mi prec qps} {st0 : State K n me mi prec qps} (fuel : ℕ)
    {st r : State K n me mi prec qps} (hv : Visited env st0 st) (ht : terminated env st = false)
    (hf : (env.cfg.maxIter - st.iter).toNat ≤ fuel) (h : loop env fuel st = some r) :
    ∃ s, Visited env st0 s ∧ ((terminated env s = true ∧ r = { s with status := .SOLVED }) ∨
      (terminated env s = false ∧ env.cfg.maxIter ≤ s.iter ∧ r = s)) := by
  induction fuel generalizing st with
  | zero =>
    rw [loop] at h
    exact ⟨st, hv, Or.inr ⟨ht, by omega, (Option.some.inj h).symm⟩⟩
  | succ fuel ih =>
    rw [loop_succ] at h
    by_cases hlt : st.iter < env.cfg.maxIter
    · rw [if_pos hlt, Option.bind_eq_some_iff] at h
      obtain ⟨s, hp, h2⟩ := h
      have hvs : Visited env st0 s := .next hv ht hlt hp
      by_cases hts : terminated env s = true
      · rw [if_pos hts] at h2
        exact ⟨s, hvs, Or.inl ⟨hts, (Option.some.inj h2).symm⟩⟩
      · rw [if_neg hts] at h2
        rw [Bool.not_eq_true] at hts
        have hi := (pass_spec hp).1
        exact ih hvs hts (by omega) h2
    · rw [if_neg hlt] at h
      exact ⟨st, hv, Or.inr ⟨ht, by omega, (Option.some.inj h).symm⟩⟩

/-- How `solve` ends. -/
theorem solve_cases [NeZero n] {env : Env K n me mi prec qps} {st r : State K n me mi prec qps}
    (h : solve env st = some r) :
    ∃ s, Visited env st s ∧ ((terminated env s = true ∧ r = { s with status := .SOLVED }) ∨
      (terminated env s = false ∧ env.cfg.maxIter ≤ s.iter ∧ r = s)) := by
  rw [solve_eq, Option.bind_eq_some_iff] at h
  obtain ⟨s, hp, h2⟩ := h
  by_cases hts : terminated env s = true
  · rw [if_pos hts] at h2
    exact ⟨s, .first hp, Or.inl ⟨hts, (Option.some.inj h2).symm⟩⟩
  · rw [if_neg hts] at h2
    rw [Bool.not_eq_true] at hts
    have hi := (firstPass_spec hp).1
    exact loop_cases _ (.first hp) hts (by omega) h2

theorem visited_facts [NeZero n] {env : Env K n me mi prec qps} {st s : State K n me mi prec qps}
    (h : Visited env st s) : 1 ≤ s.iter ∧ s.iter ≤ max 1 env.cfg.maxIter ∧ s.status = .MAX_ITER_EXCEEDED ∧
      (∃ l, s.callbacks = st.callbacks ++ l ∧ (l.length : ℤ) = if env.cfg.callback then s.iter - 1 else 0) ∧
      s.maxViolation = maxConstraintsViolation env.prob env.bd s.x := by
  induction h with
  | first hp =>
    obtain ⟨h1, h2, h3, h4⟩ := firstPass_spec hp
    refine ⟨h1.ge, h1 ▸ le_max_left _ _, h2, ⟨[], by simpa using h3, by simp [h1]⟩, h4⟩
  | @next s s' hv ht hlt hp ih =>
    obtain ⟨h1, h2, h3, h4⟩ := pass_spec hp
    obtain ⟨i1, i2, i3, ⟨l, i4, i5⟩, -⟩ := ih
    refine ⟨by omega, by rw [h1]; exact le_max_of_le_right (by omega), h2.trans i3,
      ⟨l ++ (if env.cfg.callback then [s'.x] else []), ?_, ?_⟩, h4⟩
    · rw [h3, i4, List.append_assoc]
    · rw [List.length_append, Nat.cast_add, i5]
      split_ifs
      · simp only [List.length_singleton, Nat.cast_one]; omega
      · simp

/-- `(x0, lam0)` is the iterate from which the iteration ending in `s` started. -/
def From [NeZero n] (env : Env K n me mi prec qps) (st s : State K n me mi prec qps) (x0 : Fin n → K)
    (lam0 : Dual K n me mi) : Prop :=
  (s.iter = 1 ∧ x0 = st.x ∧ lam0 = st.lam) ∨
    ∃ v, Visited env st v ∧ v.iter + 1 = s.iter ∧ x0 = v.x ∧ lam0 = v.lam

/-- Every iteration consists of one QP step from a linearisation at the previous iterate. -/
theorem visited_step [NeZero n] {env : Env K n me mi prec qps} {st s : State K n me mi prec qps}
    (h : Visited env st s) :
    ∃ q s2, From env st s q.x q.lam ∧
      (∃ H, q.qp = formQP env.bd q.x H (env.prob.costGrad q.x) (env.prob.jac q.x) (env.prob.constr q.x) ∧
        ((s.iter = 1 ∧ H = env.regularise (env.prob.lagHess q.x q.lam)) ∨
          ∃ v, Visited env st v ∧ v.x = q.x ∧ v.lam = q.lam ∧
            env.hessUpdate v.qp.H v.stepPrev (env.prob.lagGrad v.x v.lam - v.lagGradient) = some H)) ∧
      qpStep env q = some s2 ∧ s.x = s2.x ∧ s.lam = s2.lam ∧ s.lamK = s2.lamK ∧ s.primalNorm = s2.primalNorm ∧
      s.dualNorm = s2.dualNorm ∧ s.qp = s2.qp ∧ s.stepPrev = s2.stepPrev ∧ s.lagGradient = s2.lagGradient := by
  cases h with
  | first hp =>
    have hi := (firstPass_spec hp).1
    unfold firstPass at hp
    rw [Option.map_eq_some_iff] at hp
    obtain ⟨s2, h2, rfl⟩ := hp
    exact ⟨linearise env (start st), s2, Or.inl ⟨hi, rfl, rfl⟩, ⟨_, rfl, Or.inl ⟨hi, rfl⟩⟩, h2, rfl, rfl, rfl, rfl, rfl, rfl,
      rfl, rfl⟩
  | @next v s hv ht hlt hp =>
    have hi := (pass_spec hp).1
    obtain ⟨s1, s2, h1, h2, rfl⟩ := pass_parts hp
    obtain ⟨H, hH, hs1⟩ := updateLinearisation_spec h1
    have e1 : s1.x = v.x := by rw [hs1]
    have e2 : s1.lam = v.lam := by rw [hs1]
    have e3 : s1.qp = formQP env.bd s1.x H (env.prob.costGrad s1.x) (env.prob.jac s1.x) (env.prob.constr s1.x) := by
      rw [hs1]
    obtain ⟨c1, c2, c3, c4, c5, c6, c7, c8, c9, c10, -⟩ := callback_fields env s2
    exact ⟨s1, s2, Or.inr ⟨v, hv, hi.symm, e1, e2⟩, ⟨H, e3, Or.inr ⟨v, hv, e1.symm, e2.symm, hH⟩⟩, h2, c1, c2, c9, c5, c6,
      c7, c8, c10⟩

end PolyMPC.Sqp
