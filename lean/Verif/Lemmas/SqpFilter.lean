import Verif.Model.SqpFilter
import Verif.Props.Filter
import Verif.Props.SqpTheory

/-!
# Lemmas about SQP with the filter line search
-/

set_option linter.unusedSectionVars false

namespace PolyMPC.SqpFilter

open PolyMPC.Filter Sqp PolyMPC.Spec PolyMPC.Spec.Filter

universe u

variable {K : Type u} [Field K] [LinearOrder K] [IsStrictOrderedRing K] {n me mi : ℕ}
variable {prec : Precond K n (me + mi)} {qps : QPSolver K n (me + mi)}

theorem searchLoop_spec (tau : K) (cost viol : (Fin n → K) → K) (x p : Fin n → K) (f : LSFilter K) (fuel : ℕ) (alpha logged : K) {a lg : K} {f' : LSFilter K}
    (h : searchLoop tau cost viol x p f fuel alpha logged = some (a, lg, f')) :
    ∃ k ≤ fuel, a = alpha * tau ^ k ∧
      (∀ j < k, f.isAcceptable (cost fun i => alpha * tau ^ j * p i + x i) (viol fun i => alpha * tau ^ j * p i + x i) = false) ∧
      ((k < fuel ∧ f.isAcceptable (cost fun i => a * p i + x i) (viol fun i => a * p i + x i) = true ∧
        f.add (cost fun i => a * p i + x i) (viol fun i => a * p i + x i) = some f') ∨ (k = fuel ∧ f' = f)) := by
  induction fuel generalizing alpha logged with
  | zero =>
    simp only [searchLoop, Option.some.injEq, Prod.mk.injEq] at h
    exact ⟨0, le_rfl, by rw [pow_zero, mul_one, h.1], fun j hj => absurd hj (Nat.not_lt_zero _), Or.inr ⟨rfl, h.2.2.symm⟩⟩
  | succ m ih =>
    rw [searchLoop] at h
    by_cases hacc : f.isAcceptable (cost fun i => alpha * p i + x i) (viol fun i => alpha * p i + x i) = true
    · rw [if_pos hacc, Option.map_eq_some_iff] at h
      obtain ⟨g, hg, he⟩ := h
      simp only [Prod.mk.injEq] at he
      obtain ⟨rfl, rfl, rfl⟩ := he
      exact ⟨0, Nat.zero_le _, by rw [pow_zero, mul_one], fun j hj => absurd hj (Nat.not_lt_zero _), Or.inl ⟨Nat.succ_pos _, hacc, hg⟩⟩
    · rw [if_neg hacc] at h
      obtain ⟨k, hk, ha, hrej, hend⟩ := ih _ _ h
      refine ⟨k + 1, by omega, by rw [ha, pow_succ']; ring, ?_, ?_⟩
      · intro j hj
        cases j with
        | zero => rw [pow_zero, mul_one]; exact Bool.not_eq_true _ ▸ hacc
        | succ j =>
          have := hrej j (by omega)
          rw [mul_assoc, ← pow_succ'] at this
          exact this
      · rcases hend with ⟨h1, h2⟩ | ⟨h1, h2⟩
        · exact Or.inl ⟨by omega, h2⟩
        · exact Or.inr ⟨by omega, h2⟩

theorem add_isSome {f : LSFilter K} (hd : 0 < f.maxDepth) (c v : K) : ∃ f', f.add c v = some f' ∧ f'.maxDepth = f.maxDepth ∧ f'.beta = f.beta := by
  have h : ∃ f', f.add c v = some f' := by
    by_cases hs : sizeLtDepth f.entries.length f.maxDepth = true
    · exact ⟨_, add_room hs⟩
    · refine ⟨_, add_full (Bool.not_eq_true _ ▸ hs) fun he => hs ?_⟩
      rw [sizeLtDepth_iff hd.le, he]
      exact hd
  obtain ⟨f', hf⟩ := h
  exact ⟨f', hf, add_frame hf⟩

theorem offer_spec {f f1 : LSFilter K} {c v : K} (h : offer f c v = some f1) :
    (f.isAcceptable c v = true ∧ f.add c v = some f1) ∨ (f.isAcceptable c v = false ∧ f1 = f) := by
  unfold offer at h
  by_cases ha : f.isAcceptable c v = true
  · rw [if_pos ha] at h
    exact Or.inl ⟨ha, h⟩
  · rw [if_neg ha] at h
    exact Or.inr ⟨Bool.not_eq_true _ ▸ ha, (Option.some.inj h).symm⟩

theorem offer_isSome {f : LSFilter K} (hd : 0 < f.maxDepth) (c v : K) : ∃ f', offer f c v = some f' ∧ f'.maxDepth = f.maxDepth ∧ f'.beta = f.beta := by
  unfold offer
  by_cases ha : f.isAcceptable c v = true
  · rw [if_pos ha]
    exact add_isSome hd c v
  · rw [if_neg ha]
    exact ⟨f, rfl, rfl, rfl⟩

theorem searchLoop_isSome (tau : K) (cost viol : (Fin n → K) → K) (x p : Fin n → K) {f : LSFilter K} (hd : 0 < f.maxDepth) (fuel : ℕ) (alpha logged : K) :
    ∃ a lg f', searchLoop tau cost viol x p f fuel alpha logged = some (a, lg, f') ∧ f'.maxDepth = f.maxDepth ∧ f'.beta = f.beta := by
  induction fuel generalizing alpha logged with
  | zero => exact ⟨_, _, _, rfl, rfl, rfl⟩
  | succ m ih =>
    rw [searchLoop]
    by_cases hacc : f.isAcceptable (cost fun i => alpha * p i + x i) (viol fun i => alpha * p i + x i) = true
    · rw [if_pos hacc]
      obtain ⟨g, hg, h1, h2⟩ := add_isSome hd (cost fun i => alpha * p i + x i) (viol fun i => alpha * p i + x i)
      exact ⟨_, _, g, by rw [hg]; rfl, h1, h2⟩
    · rw [if_neg hacc]
      exact ih _ _

/-- What one QP step does, with the quantities it computes named. -/
theorem qpStep_spec {eps : K} {env : Env K n me mi prec qps} {st r : State K n me mi prec qps} (h : qpStep eps env st = some r) :
    ∃ mem scaled p lamK alpha logged, prec.compute st.s.precMem st.s.qp = some (mem, scaled) ∧
      (p, lamK) = prec.unscalePair mem ((qps.solve st.s.qpMem scaled).2.1, (qps.solve st.s.qpMem scaled).2.2.1) ∧
      search eps env.cfg env.prob env.bd st.filter st.s.x p st.s.cost = some (alpha, logged, r.filter) ∧
      r.s.x = (fun i => st.s.x i + alpha * p i) ∧ r.s.iter = st.s.iter ∧ r.s.status = st.s.status ∧
      Sqp.qpStep { env with stepSize := fun _ _ _ _ _ => (alpha, logged) } st.s = some r.s := by
  unfold qpStep at h
  rw [Option.bind_eq_some_iff] at h
  obtain ⟨⟨mem, scaled⟩, h1, h2⟩ := h
  simp only at h2
  rw [Option.map_eq_some_iff] at h2
  obtain ⟨⟨alpha, logged, f⟩, h3, h4⟩ := h2
  subst h4
  refine ⟨mem, scaled, _, _, alpha, logged, h1, rfl, h3, rfl, rfl, rfl, ?_⟩
  unfold Sqp.qpStep
  rw [h1]
  rfl

/-- The state after a QP step with the given results of the QP solver and of the line search. -/
def stepped (s : Sqp.State K n me mi prec qps) (mem : prec.Mem) (qm : qps.Mem) (p : Fin n → K) (lamK : Dual K n me mi) (qp : QP K n (me + mi)) (it : ℤ) (t : K × K × LSFilter K) :
    State K n me mi prec qps :=
  { filter := t.2.2
    s := { s with
      precMem := mem
      qpMem := qm
      qp := qp
      lamK := lamK
      cost := t.2.1
      qpIter := s.qpIter + it
      x := fun i => s.x i + t.1 * p i
      lam := fun i => s.lam i + t.1 * (lamK - s.lam) i
      stepPrev := fun i => t.1 * p i
      primalNorm := t.1 * infNorm p
      dualNorm := t.1 * infNorm (lamK - s.lam) } }

theorem qpStep_eq {eps : K} {env : Env K n me mi prec qps} {st : State K n me mi prec qps} {mem : prec.Mem} {scaled : QP K n (me + mi)}
    (h : prec.compute st.s.precMem st.s.qp = some (mem, scaled)) :
    qpStep eps env st = (search eps env.cfg env.prob env.bd st.filter st.s.x
        (prec.unscalePair mem ((qps.solve st.s.qpMem scaled).2.1, (qps.solve st.s.qpMem scaled).2.2.1)).1 st.s.cost).map
      (stepped st.s mem (qps.solve st.s.qpMem scaled).1 (prec.unscalePair mem ((qps.solve st.s.qpMem scaled).2.1, (qps.solve st.s.qpMem scaled).2.2.1)).1
        (prec.unscalePair mem ((qps.solve st.s.qpMem scaled).2.1, (qps.solve st.s.qpMem scaled).2.2.1)).2 (prec.unscale mem scaled) (qps.solve st.s.qpMem scaled).2.2.2) := by
  unfold qpStep
  rw [h]
  rfl

end PolyMPC.SqpFilter
