import Verif.Lemmas.SqpFilter

/-!
# SQP with the filter line search (C215, C216)

The solver of `valet_parking_mpc_test.cpp`: `SQPBase` with a filter instead of the merit function. C215 says what the line search returns and that the run never goes back to a point
that was recorded before; C216 says what the filter does to later calls of `solve`, since nothing resets it.
-/

set_option linter.unusedSectionVars false

namespace PolyMPC.SqpFilter

open PolyMPC.Filter Sqp PolyMPC.Spec PolyMPC.Spec.Filter

universe u

variable {K : Type u} [Field K] [LinearOrder K] [IsStrictOrderedRing K] {n me mi : ℕ}
variable {prec : Precond K n (me + mi)} {qps : QPSolver K n (me + mi)}

/-- What the filter sees of a point: the cost, and the machine epsilon plus the sum of all constraint violations. -/
def point (eps : K) (prob : Problem K n me mi) (bd : Bounds K n mi) (x : Fin n → K) : K × K :=
  (prob.cost x, eps + l1Violation (prob.eq x) (prob.ineq x) bd.lbg bd.ubg x bd.lbx bd.ubx)

/-- The point may be accepted by the filter. -/
def Acceptable (f : LSFilter K) (q : K × K) : Prop := ∀ e ∈ f.entries, SufficientlyBetter f.beta q e

theorem acceptable_true (f : LSFilter K) (eps : K) (prob : Problem K n me mi) (bd : Bounds K n mi) (x : Fin n → K) :
    f.isAcceptable (prob.cost x) (constraintsViolation eps prob bd x) = true ↔ Acceptable f (point eps prob bd x) := by
  rw [isAcceptable_iff, constraintsViolation_eq]
  rfl

theorem acceptable_false (f : LSFilter K) (eps : K) (prob : Problem K n me mi) (bd : Bounds K n mi) (x : Fin n → K) :
    f.isAcceptable (prob.cost x) (constraintsViolation eps prob bd x) = false ↔ ¬ Acceptable f (point eps prob bd x) := by
  rw [← acceptable_true, Bool.not_eq_true]

theorem point_add (f : LSFilter K) (eps : K) (prob : Problem K n me mi) (bd : Bounds K n mi) (x : Fin n → K) :
    f.add (prob.cost x) (constraintsViolation eps prob bd x) = f.add (point eps prob bd x).1 (point eps prob bd x).2 := by
  rw [constraintsViolation_eq]
  rfl

theorem add_comm_fun (a : K) (x p : Fin n → K) : (fun i => a * p i + x i) = fun i => x i + a * p i := funext fun _ => add_comm _ _

/-! ## C215 -/

/-- The filter `f1` in which the trial points of a line search from `x` are looked up: the current point has been recorded if the filter accepts it. -/
def Offered (eps : K) (prob : Problem K n me mi) (bd : Bounds K n mi) (f : LSFilter K) (x : Fin n → K) (f1 : LSFilter K) : Prop :=
  (Acceptable f (point eps prob bd x) ∧ f.add (point eps prob bd x).1 (point eps prob bd x).2 = some f1) ∨ (¬ Acceptable f (point eps prob bd x) ∧ f1 = f)

theorem offered_of {eps : K} {prob : Problem K n me mi} {bd : Bounds K n mi} {f f1 : LSFilter K} {x : Fin n → K}
    (h : offer f (prob.cost x) (constraintsViolation eps prob bd x) = some f1) : Offered eps prob bd f x f1 := by
  rcases offer_spec h with ⟨h1, h2⟩ | ⟨h1, h2⟩
  · rw [acceptable_true] at h1
    rw [point_add] at h2
    exact Or.inl ⟨h1, h2⟩
  · rw [acceptable_false] at h1
    exact Or.inr ⟨h1, h2⟩

/-- C215, the line search: the returned step size is `tau^k` with `k ≤ line_search_max_iter - 1`; all larger trial steps were rejected by the filter. If `k` is smaller than
`line_search_max_iter - 1` the new point is sufficiently better than every point in the filter, the current one included if it was accepted, and it is recorded; otherwise the step was
not looked up at all and nothing further is recorded. -/
theorem search_spec {eps : K} {cfg : Settings K} {prob : Problem K n me mi} {bd : Bounds K n mi} {f f' : LSFilter K} {x p : Fin n → K} {logged a lg : K}
    (h : search eps cfg prob bd f x p logged = some (a, lg, f')) :
    ∃ f1 k, Offered eps prob bd f x f1 ∧ a = cfg.tau ^ k ∧ k ≤ (cfg.lineSearchMaxIter - 1).toNat ∧
      (∀ j < k, ¬ Acceptable f1 (point eps prob bd fun i => x i + cfg.tau ^ j * p i)) ∧
      ((k < (cfg.lineSearchMaxIter - 1).toNat ∧ Acceptable f1 (point eps prob bd fun i => x i + a * p i) ∧
        f1.add (point eps prob bd fun i => x i + a * p i).1 (point eps prob bd fun i => x i + a * p i).2 = some f') ∨
      (k = (cfg.lineSearchMaxIter - 1).toNat ∧ f' = f1)) := by
  unfold search at h
  rw [Option.bind_eq_some_iff] at h
  obtain ⟨f1, h1, h2⟩ := h
  obtain ⟨k, hk, ha, hrej, hend⟩ := searchLoop_spec _ _ _ _ _ _ _ _ _ h2
  refine ⟨f1, k, offered_of h1, by rw [ha, one_mul], hk, fun j hj => ?_, ?_⟩
  · have := hrej j hj
    rw [one_mul, add_comm_fun, acceptable_false] at this
    exact this
  · rcases hend with ⟨e1, e2, e3⟩ | e
    · rw [add_comm_fun, acceptable_true] at e2
      rw [add_comm_fun, point_add] at e3
      exact Or.inl ⟨e1, e2, e3⟩
    · exact Or.inr e

/-- C215: the step size lies in `(0, 1]`. -/
theorem search_range {eps : K} {cfg : Settings K} (h0 : 0 < cfg.tau) (h1 : cfg.tau ≤ 1) {prob : Problem K n me mi} {bd : Bounds K n mi} {f f' : LSFilter K} {x p : Fin n → K}
    {logged a lg : K} (h : search eps cfg prob bd f x p logged = some (a, lg, f')) : 0 < a ∧ a ≤ 1 := by
  obtain ⟨-, k, -, rfl, -⟩ := search_spec h
  exact ⟨pow_pos h0 k, pow_le_one₀ h0.le h1⟩

/-- C215: a filter of positive depth never runs into undefined behaviour in a line search. -/
theorem search_total (eps : K) (cfg : Settings K) (prob : Problem K n me mi) (bd : Bounds K n mi) {f : LSFilter K} (hd : 0 < f.maxDepth) (x p : Fin n → K) (logged : K) :
    ∃ a lg f', search eps cfg prob bd f x p logged = some (a, lg, f') ∧ f'.maxDepth = f.maxDepth ∧ f'.beta = f.beta := by
  obtain ⟨f1, h1, h2, h3⟩ := offer_isSome hd (prob.cost x) (constraintsViolation eps prob bd x)
  obtain ⟨a, lg, f', h4, h5, h6⟩ := searchLoop_isSome cfg.tau prob.cost (constraintsViolation eps prob bd) x p (f := f1) (h2 ▸ hd) (cfg.lineSearchMaxIter - 1).toNat 1 logged
  exact ⟨a, lg, f', by rw [search, h1, Option.bind_some, h4], h5.trans h2, h6.trans h3⟩

/-- One iteration takes the solver from the iterate and filter of `a` to those of `c`; everything else may have been changed in between. -/
def Step (eps : K) (env : Env K n me mi prec qps) (a c : State K n me mi prec qps) : Prop :=
  ∃ q r, q.s.x = a.s.x ∧ q.filter = a.filter ∧ qpStep eps env q = some r ∧ c.s.x = r.s.x ∧ c.filter = r.filter

/-- There is room for two more points in the filter. -/
def Room (a : State K n me mi prec qps) : Prop := (a.filter.entries.length : ℤ) + 1 < a.filter.maxDepth

/-- A sequence of iterations, possibly of several calls of `solve`, in each of which the filter has room. -/
inductive Run (eps : K) (env : Env K n me mi prec qps) : State K n me mi prec qps → State K n me mi prec qps → Prop
  | refl (a) : Run eps env a a
  | step {a b c} : Run eps env a b → Room b → Step eps env b c → Run eps env a c

/-- The states at the end of the iterations of `solve eps env st`. -/
inductive Visited [NeZero n] (eps : K) (env : Env K n me mi prec qps) (st : State K n me mi prec qps) : State K n me mi prec qps → Prop
  | first {s} : firstPass eps env st = some s → Visited eps env st s
  | next {s s'} : Visited eps env st s → terminated env s.s = false → s.s.iter < env.cfg.maxIter → pass eps env s = some s' → Visited eps env st s'

theorem firstPass_step [NeZero n] {eps : K} {env : Env K n me mi prec qps} {st s : State K n me mi prec qps} (h : firstPass eps env st = some s) :
    Step eps env st s ∧ s.s.iter = 1 ∧ s.s.status = .MAX_ITER_EXCEEDED := by
  unfold firstPass at h
  rw [Option.map_eq_some_iff] at h
  obtain ⟨r, hr, rfl⟩ := h
  obtain ⟨_, _, _, _, _, _, -, -, -, -, h1, h2, -⟩ := qpStep_spec hr
  exact ⟨⟨{ st with s := linearise env (start st.s) }, r, rfl, rfl, hr, rfl, rfl⟩, h1, h2⟩

theorem pass_step [NeZero n] {eps : K} {env : Env K n me mi prec qps} {st s : State K n me mi prec qps} (h : pass eps env st = some s) :
    Step eps env st s ∧ s.s.iter = st.s.iter + 1 ∧ s.s.status = st.s.status := by
  unfold pass at h
  rw [Option.bind_eq_some_iff] at h
  obtain ⟨s1, h1, h2⟩ := h
  rw [Option.map_eq_some_iff] at h2
  obtain ⟨r, hr, rfl⟩ := h2
  obtain ⟨H, -, hs1⟩ := updateLinearisation_spec h1
  have e1 : s1.x = st.s.x := by rw [hs1]
  have e2 : s1.iter = st.s.iter + 1 := by rw [hs1]
  have e3 : s1.status = st.s.status := by rw [hs1]
  obtain ⟨_, _, _, _, _, _, -, -, -, -, h3, h4, -⟩ := qpStep_spec hr
  obtain ⟨c1, -, c3, c4, -⟩ := callback_fields env r.s
  exact ⟨⟨{ st with s := s1 }, r, e1, rfl, hr, c1, rfl⟩, c3.trans (h3.trans e2), c4.trans (h4.trans e3)⟩

theorem loop_cases [NeZero n] {eps : K} {env : Env K n me mi prec qps} {st0 : State K n me mi prec qps} (fuel : ℕ) {st r : State K n me mi prec qps} (hv : Visited eps env st0 st)
    (ht : terminated env st.s = false) (hf : (env.cfg.maxIter - st.s.iter).toNat ≤ fuel) (h : loop eps env fuel st = some r) :
    ∃ s, Visited eps env st0 s ∧ ((terminated env s.s = true ∧ r = { s with s := { s.s with status := .SOLVED } }) ∨
      (terminated env s.s = false ∧ env.cfg.maxIter ≤ s.s.iter ∧ r = s)) := by
  induction fuel generalizing st with
  | zero =>
    rw [loop] at h
    exact ⟨st, hv, Or.inr ⟨ht, by omega, (Option.some.inj h).symm⟩⟩
  | succ fuel ih =>
    rw [loop] at h
    by_cases hlt : st.s.iter < env.cfg.maxIter
    · rw [if_pos hlt, Option.bind_eq_some_iff] at h
      obtain ⟨s, hp, h2⟩ := h
      have hvs : Visited eps env st0 s := .next hv ht hlt hp
      by_cases hts : terminated env s.s = true
      · rw [if_pos hts] at h2
        exact ⟨s, hvs, Or.inl ⟨hts, (Option.some.inj h2).symm⟩⟩
      · rw [if_neg hts] at h2
        rw [Bool.not_eq_true] at hts
        have hi := (pass_step hp).2.1
        exact ih hvs hts (by omega) h2
    · rw [if_neg hlt] at h
      exact ⟨st, hv, Or.inr ⟨ht, by omega, (Option.some.inj h).symm⟩⟩

/-- C215: how `solve` ends. `SOLVED` means that the last step was short and the last iterate nearly feasible, otherwise `max_iter` iterations were made. -/
theorem solve_cases [NeZero n] {eps : K} {env : Env K n me mi prec qps} {st r : State K n me mi prec qps} (h : solve eps env st = some r) :
    ∃ s, Visited eps env st s ∧ ((terminated env s.s = true ∧ r = { s with s := { s.s with status := .SOLVED } }) ∨
      (terminated env s.s = false ∧ env.cfg.maxIter ≤ s.s.iter ∧ r = s)) := by
  unfold solve at h
  rw [Option.bind_eq_some_iff] at h
  obtain ⟨s, hp, h2⟩ := h
  by_cases hts : terminated env s.s = true
  · rw [if_pos hts] at h2
    exact ⟨s, .first hp, Or.inl ⟨hts, (Option.some.inj h2).symm⟩⟩
  · rw [if_neg hts] at h2
    rw [Bool.not_eq_true] at hts
    have hi := (firstPass_step hp).2.1
    exact loop_cases _ (.first hp) hts (by omega) h2

/-- C215: `solve` makes iterations in the sense of `Step`. -/
theorem visited_run [NeZero n] {eps : K} {env : Env K n me mi prec qps} {st s : State K n me mi prec qps} (h : Visited eps env st s)
    (hroom : Room st ∧ ∀ v, Visited eps env st v → Room v) : Run eps env st s := by
  induction h with
  | first hp => exact .step (.refl _) hroom.1 (firstPass_step hp).1
  | @next s s' hv _ _ hp ih => exact .step ih (hroom.2 s hv) (pass_step hp).1

/-- The new iterate is sufficiently better than everything the filter holds when the line search of the iteration from `a` to `c` looks at its trial points. -/
def Accepted (eps : K) (env : Env K n me mi prec qps) (a c : State K n me mi prec qps) : Prop :=
  ∃ f1, Offered eps env.prob env.bd a.filter a.s.x f1 ∧ Acceptable f1 (point eps env.prob env.bd c.s.x)

/-- C215: in every iteration either the new iterate is accepted and recorded, or the smallest step `tau^(line_search_max_iter - 1)` of the QP solution is taken without a test. -/
theorem step_cases {eps : K} {env : Env K n me mi prec qps} {a c : State K n me mi prec qps} (h : Step eps env a c) :
    (Accepted eps env a c ∧ point eps env.prob env.bd c.s.x ∈ c.filter.entries) ∨
      ∃ p : Fin n → K, c.s.x = fun i => a.s.x i + env.cfg.tau ^ (env.cfg.lineSearchMaxIter - 1).toNat * p i := by
  obtain ⟨q, r, hx, hf, hr, hcx, hcf⟩ := h
  obtain ⟨mem, scaled, p, lamK, alpha, logged, -, -, hs, hrx, -⟩ := qpStep_spec hr
  obtain ⟨f1, k, h1, h2, -, -, h5⟩ := search_spec hs
  rw [hx, hf] at h1
  rcases h5 with ⟨-, h6, h7⟩ | ⟨h6, -⟩
  · left
    rw [← hrx, ← hcx] at h6 h7
    refine ⟨⟨f1, h1, h6⟩, ?_⟩
    rw [hcf]
    exact add_head h7
  · right
    exact ⟨p, by rw [hcx, hrx, hx, h2, h6]⟩

theorem add_keeps {f f' : LSFilter K} {c v : K} (hroom : (f.entries.length : ℤ) < f.maxDepth) (h : f.add c v = some f') {p : K × K} (hp : ∃ e ∈ f.entries, Dominates e p) :
    (∃ e ∈ f'.entries, Dominates e p) ∧ (f'.entries.length : ℤ) ≤ f.entries.length + 1 := by
  have hs : sizeLtDepth f.entries.length f.maxDepth = true := by
    rw [sizeLtDepth_iff (by omega)]
    exact hroom
  rw [add_room hs, Option.some.injEq] at h
  subst h
  obtain ⟨e, he, hd⟩ := hp
  refine ⟨?_, ?_⟩
  · by_cases hdom : dominatedBy c v e = true
    · rw [dominatedBy_iff] at hdom
      exact ⟨(c, v), List.mem_cons_self .., ⟨hdom.1.trans hd.1, hdom.2.trans hd.2⟩⟩
    · exact ⟨e, List.mem_cons_of_mem _ (List.mem_filter.mpr ⟨he, by simp [hdom]⟩), hd⟩
  · have := List.length_filter_le (fun e => !dominatedBy c v e) f.entries
    simp only [List.length_cons]
    push_cast
    omega

theorem add_nonneg {f f' : LSFilter K} {c v : K} (h : f.add c v = some f') (hv : 0 ≤ v) (hf : ∀ e ∈ f.entries, 0 ≤ e.2) : ∀ e ∈ f'.entries, 0 ≤ e.2 := by
  unfold LSFilter.add at h
  split at h
  · cases h
    intro e he
    rcases List.mem_cons.mp he with rfl | he
    · exact hv
    · exact hf e (List.mem_filter.mp he).1
  · split at h
    · cases h
    · rename_i l hl
      cases h
      obtain ⟨-, rfl⟩ := popBack_eq_some.mp hl
      intro e he
      rcases List.mem_cons.mp he with rfl | he
      · exact hv
      · exact hf e (List.dropLast_subset _ he)

theorem point_nonneg {eps : K} (heps : 0 ≤ eps) (prob : Problem K n me mi) (bd : Bounds K n mi) (x : Fin n → K) : 0 ≤ (point eps prob bd x).2 :=
  _root_.add_nonneg heps (l1Violation_nonneg _ _ _ _ _ _ _)

/-- What a filter keeps from a set of recorded points. -/
def Keeps (f : LSFilter K) (p : K × K) : Prop := 0 ≤ f.beta ∧ (∀ e ∈ f.entries, 0 ≤ e.2) ∧ ∃ e ∈ f.entries, Dominates e p

theorem Keeps.add {f f' : LSFilter K} {p : K × K} {c v : K} (h : Keeps f p) (hroom : (f.entries.length : ℤ) < f.maxDepth) (hv : 0 ≤ v) (ha : f.add c v = some f') :
    Keeps f' p ∧ f'.maxDepth = f.maxDepth ∧ (f'.entries.length : ℤ) ≤ f.entries.length + 1 := by
  obtain ⟨k1, k2⟩ := add_keeps hroom ha h.2.2
  obtain ⟨f1, f2⟩ := add_frame ha
  exact ⟨⟨f2 ▸ h.1, add_nonneg ha hv h.2.1, k1⟩, f1, k2⟩

theorem Keeps.offered {eps : K} (heps : 0 ≤ eps) {prob : Problem K n me mi} {bd : Bounds K n mi} {f f1 : LSFilter K} {p : K × K} {x : Fin n → K} (h : Keeps f p)
    (hroom : (f.entries.length : ℤ) + 1 < f.maxDepth) (ho : Offered eps prob bd f x f1) : Keeps f1 p ∧ (f1.entries.length : ℤ) < f1.maxDepth := by
  rcases ho with ⟨-, ho⟩ | ⟨-, rfl⟩
  · obtain ⟨h1, h2, h3⟩ := h.add (by omega) (point_nonneg heps _ _ _) ho
    exact ⟨h1, by omega⟩
  · exact ⟨h, by omega⟩

theorem Keeps.step {eps : K} (heps : 0 ≤ eps) {env : Env K n me mi prec qps} {a c : State K n me mi prec qps} {p : K × K} (h : Keeps a.filter p) (hroom : Room a)
    (hs : Step eps env a c) : Keeps c.filter p := by
  obtain ⟨q, r, hx, hf, hr, hcx, hcf⟩ := hs
  obtain ⟨mem, scaled, d, lamK, alpha, logged, -, -, hs, -⟩ := qpStep_spec hr
  obtain ⟨f1, k, h1, -, -, -, h5⟩ := search_spec hs
  rw [hf] at h1
  obtain ⟨k1, k2⟩ := h.offered heps hroom h1
  rw [hcf]
  rcases h5 with ⟨-, -, h7⟩ | ⟨-, h6⟩
  · exact (k1.add k2 (point_nonneg heps _ _ _) h7).1
  · exact h6 ▸ k1

theorem Keeps.run {eps : K} (heps : 0 ≤ eps) {env : Env K n me mi prec qps} {a b : State K n me mi prec qps} {p : K × K} (h : Keeps a.filter p) (hr : Run eps env a b) :
    Keeps b.filter p := by
  induction hr with
  | refl => exact h
  | step _ hroom hs ih => exact ih.step heps hroom hs

/-- **C215.** As long as the filter is not full, an accepted iterate is never dominated by a point that was recorded before: it has a smaller cost or a smaller violation than each of
them. The recorded points are those of all accepted iterates (`step_cases`), so the solver never goes back to one. -/
theorem accepted_not_dominated {eps : K} (heps : 0 ≤ eps) {env : Env K n me mi prec qps} {a b c : State K n me mi prec qps} (hb : 0 ≤ a.filter.beta)
    (hv : ∀ e ∈ a.filter.entries, 0 ≤ e.2) {p : K × K} (hp : p ∈ a.filter.entries) (hr : Run eps env a b) (hroom : Room b) (hacc : Accepted eps env b c) :
    ¬ Dominates p (point eps env.prob env.bd c.s.x) := by
  intro hd
  have hk : Keeps b.filter (point eps env.prob env.bd c.s.x) := Keeps.run heps ⟨hb, hv, p, hp, hd⟩ hr
  obtain ⟨f1, h1, h2⟩ := hacc
  obtain ⟨⟨k1, k2, e, he, k3⟩, -⟩ := hk.offered heps hroom h1
  have hm := mul_nonneg k1 (k2 e he)
  rcases h2 e he with h | h
  · exact absurd k3.1 (not_le.mpr (h.trans_le (by linarith)))
  · exact absurd k3.2 (not_le.mpr (h.trans_le (by linarith)))

/-- **C215.** If the recorded point was feasible, every later accepted iterate costs less. -/
theorem accepted_cost_decreases {eps : K} (heps : 0 ≤ eps) {env : Env K n me mi prec qps} {a b c : State K n me mi prec qps} (hb : 0 ≤ a.filter.beta)
    (hv : ∀ e ∈ a.filter.entries, 0 ≤ e.2) {x0 : Fin n → K} (hp : point eps env.prob env.bd x0 ∈ a.filter.entries)
    (hfeas : NlpFeasible (env.prob.eq x0) (env.prob.ineq x0) env.bd.lbg env.bd.ubg x0 env.bd.lbx env.bd.ubx) (hr : Run eps env a b) (hroom : Room b) (hacc : Accepted eps env b c) :
    env.prob.cost c.s.x < env.prob.cost x0 := by
  by_contra hge
  refine accepted_not_dominated heps hb hv hp hr hroom hacc ⟨not_lt.mp hge, ?_⟩
  simp only [point]
  rw [(l1Violation_eq_zero_iff _ _ _ _ _ _ _).mpr hfeas, add_zero]
  exact le_add_of_nonneg_right (l1Violation_nonneg _ _ _ _ _ _ _)

theorem qpStep_total {eps : K} {env : Env K n me mi prec qps} (hc : ∀ m qp, (prec.compute m qp).isSome) {st : State K n me mi prec qps} (hd : 0 < st.filter.maxDepth) :
    ∃ r, qpStep eps env st = some r ∧ 0 < r.filter.maxDepth := by
  obtain ⟨⟨mem, scaled⟩, h1⟩ := Option.isSome_iff_exists.mp (hc st.s.precMem st.s.qp)
  obtain ⟨a, lg, f', h2, h3, -⟩ := search_total eps env.cfg env.prob env.bd hd st.s.x
    (prec.unscalePair mem ((qps.solve st.s.qpMem scaled).2.1, (qps.solve st.s.qpMem scaled).2.2.1)).1 st.s.cost
  refine ⟨_, by rw [qpStep_eq h1, h2]; rfl, ?_⟩
  change 0 < f'.maxDepth
  omega

theorem loop_total [NeZero n] {eps : K} {env : Env K n me mi prec qps} (hc : ∀ m qp, (prec.compute m qp).isSome) (hu : ∀ H s y, (env.hessUpdate H s y).isSome) (fuel : ℕ)
    {st : State K n me mi prec qps} (hd : 0 < st.filter.maxDepth) : ∃ r, loop eps env fuel st = some r ∧ 0 < r.filter.maxDepth := by
  induction fuel generalizing st with
  | zero => exact ⟨st, rfl, hd⟩
  | succ k ih =>
    rw [loop]
    by_cases hlt : st.s.iter < env.cfg.maxIter
    · rw [if_pos hlt]
      obtain ⟨H, hH⟩ := Option.isSome_iff_exists.mp (hu st.s.qp.H st.s.stepPrev (env.prob.lagGrad st.s.x st.s.lam - st.s.lagGradient))
      obtain ⟨s1, h1⟩ : ∃ s1, updateLinearisation env { st.s with iter := st.s.iter + 1 } = some s1 := by
        unfold updateLinearisation
        simp only [hH, Option.map_some]
        exact ⟨_, rfl⟩
      obtain ⟨r, hr, hdr⟩ := qpStep_total (eps := eps) (env := env) hc (st := { st with s := s1 }) hd
      have hp : pass eps env st = some { r with s := Sqp.measure env (callback env r.s) } := by
        unfold pass
        rw [h1, Option.bind_some, hr, Option.map_some]
      rw [hp, Option.bind_some]
      by_cases ht : terminated env (Sqp.measure env (callback env r.s)) = true
      · rw [if_pos ht]
        exact ⟨_, rfl, hdr⟩
      · rw [if_neg ht]
        exact ih hdr
    · rw [if_neg hlt]
      exact ⟨st, rfl, hd⟩

/-- C215: with a filter of positive depth `solve` never runs into undefined behaviour in the filter, whatever it holds already. -/
theorem filter_solve_total [NeZero n] {eps : K} {env : Env K n me mi prec qps} (hc : ∀ m qp, (prec.compute m qp).isSome) (hu : ∀ H s y, (env.hessUpdate H s y).isSome)
    {st : State K n me mi prec qps} (hd : 0 < st.filter.maxDepth) : ∃ r, solve eps env st = some r ∧ 0 < r.filter.maxDepth := by
  unfold solve firstPass
  obtain ⟨r, hr, hdr⟩ := qpStep_total (eps := eps) (env := env) hc (st := { st with s := linearise env (start st.s) }) hd
  change ∃ r, Option.bind (Option.map _ (qpStep eps env { st with s := linearise env (start st.s) })) _ = some r ∧ _
  rw [hr, Option.map_some, Option.bind_some]
  by_cases ht : terminated env (Sqp.measure env r.s) = true
  · rw [if_pos ht]
    exact ⟨_, rfl, hdr⟩
  · rw [if_neg ht]
    exact loop_total hc hu _ hdr

/-! ## C216 -/

/-- The filter holds a point that is at least as good as every point any later problem with this cost can have. -/
def HoldsBest (eps : K) (cost : (Fin n → K) → K) (f : LSFilter K) : Prop := 0 ≤ f.beta ∧ ∃ e ∈ f.entries, 0 ≤ e.2 ∧ e.2 ≤ eps ∧ ∀ x, e.1 ≤ cost x

/-- If a solution with the smallest value of the cost was recorded while it was feasible, the filter holds a best point. -/
theorem holdsBest_of_point {eps : K} (heps : 0 ≤ eps) {prob : Problem K n me mi} {bd : Bounds K n mi} {f : LSFilter K} (hb : 0 ≤ f.beta) {x0 : Fin n → K}
    (hp : point eps prob bd x0 ∈ f.entries) (hfeas : NlpFeasible (prob.eq x0) (prob.ineq x0) bd.lbg bd.ubg x0 bd.lbx bd.ubx) (hmin : ∀ x, prob.cost x0 ≤ prob.cost x) :
    HoldsBest eps prob.cost f := by
  refine ⟨hb, _, hp, point_nonneg heps _ _ _, ?_, hmin⟩
  simp only [point]
  rw [(l1Violation_eq_zero_iff _ _ _ _ _ _ _).mpr hfeas, add_zero]

theorem HoldsBest.reject {eps : K} {prob : Problem K n me mi} {f : LSFilter K} (h : HoldsBest eps prob.cost f) (bd : Bounds K n mi) (x : Fin n → K) :
    f.isAcceptable (prob.cost x) (constraintsViolation eps prob bd x) = false := by
  rw [acceptable_false]
  intro hacc
  obtain ⟨hb, e, he, h0, h1, h2⟩ := h
  have hm := mul_nonneg hb h0
  have hl := l1Violation_nonneg (prob.eq x) (prob.ineq x) bd.lbg bd.ubg x bd.lbx bd.ubx
  rcases hacc e he with h | h
  · have := h2 x
    simp only [point] at h
    linarith
  · simp only [point] at h
    linarith

/-- The cost logged by a line search in which every trial step is rejected. -/
def lastTrial (tau : K) (m : ℕ) (cost : (Fin n → K) → K) (x p : Fin n → K) (logged : K) : K :=
  if m = 0 then logged else cost fun i => tau ^ (m - 1) * p i + x i

theorem HoldsBest.searchLoop {eps : K} {prob : Problem K n me mi} {f : LSFilter K} (h : HoldsBest eps prob.cost f) (bd : Bounds K n mi) (tau : K) (x p : Fin n → K) (m : ℕ) (a logged : K) :
    searchLoop tau prob.cost (constraintsViolation eps prob bd) x p f m a logged =
      some (a * tau ^ m, if m = 0 then logged else prob.cost fun i => a * tau ^ (m - 1) * p i + x i, f) := by
  induction m generalizing a logged with
  | zero => rw [SqpFilter.searchLoop, pow_zero, mul_one, if_pos rfl]
  | succ m ih =>
    have hrej := h.reject bd fun i => a * p i + x i
    rw [SqpFilter.searchLoop, if_neg (by rw [hrej]; exact Bool.false_ne_true), ih, if_neg (Nat.succ_ne_zero m), Nat.add_sub_cancel, mul_assoc, ← pow_succ']
    congr 3
    cases m with
    | zero => rw [if_pos rfl, pow_zero, mul_one]
    | succ m => rw [if_neg (Nat.succ_ne_zero m), Nat.add_sub_cancel, pow_succ', mul_assoc]

theorem HoldsBest.search {eps : K} {prob : Problem K n me mi} {f : LSFilter K} (h : HoldsBest eps prob.cost f) (cfg : Settings K) (bd : Bounds K n mi) (x p : Fin n → K) (logged : K) :
    search eps cfg prob bd f x p logged =
      some (cfg.tau ^ (cfg.lineSearchMaxIter - 1).toNat, lastTrial cfg.tau (cfg.lineSearchMaxIter - 1).toNat prob.cost x p logged, f) := by
  unfold SqpFilter.search offer
  rw [if_neg (by rw [h.reject bd x]; exact Bool.false_ne_true), Option.bind_some, h.searchLoop]
  simp only [one_mul]
  rfl

/-- The solver that always takes the smallest step. -/
def smallest (env : Env K n me mi prec qps) : Env K n me mi prec qps :=
  { env with stepSize := fun _ _ x p c =>
      (env.cfg.tau ^ (env.cfg.lineSearchMaxIter - 1).toNat, lastTrial env.cfg.tau (env.cfg.lineSearchMaxIter - 1).toNat env.prob.cost x p c) }

theorem HoldsBest.qpStep {eps : K} {env : Env K n me mi prec qps} {st : State K n me mi prec qps} (h : HoldsBest eps env.prob.cost st.filter) :
    qpStep eps env st = (Sqp.qpStep (smallest env) st.s).map fun s => { st with s := s } := by
  unfold SqpFilter.qpStep Sqp.qpStep
  cases hc : prec.compute st.s.precMem st.s.qp with
  | none => rfl
  | some ms =>
    obtain ⟨mem, scaled⟩ := ms
    simp only [Option.bind_some, Option.map_some]
    rw [h.search]
    rfl

theorem HoldsBest.pass [NeZero n] {eps : K} {env : Env K n me mi prec qps} {st : State K n me mi prec qps} (h : HoldsBest eps env.prob.cost st.filter) :
    pass eps env st = (Sqp.pass (smallest env) st.s).map fun s => { st with s := s } := by
  unfold SqpFilter.pass Sqp.pass
  change (updateLinearisation env { st.s with iter := st.s.iter + 1 }).bind _ = Option.map _ ((updateLinearisation env { st.s with iter := st.s.iter + 1 }).bind _)
  cases hu : updateLinearisation env { st.s with iter := st.s.iter + 1 } with
  | none => rfl
  | some s1 =>
    simp only [Option.bind_some]
    rw [HoldsBest.qpStep (st := { st with s := s1 }) h]
    cases Sqp.qpStep (smallest env) s1 with
    | none => rfl
    | some s2 => rfl

theorem HoldsBest.loop [NeZero n] {eps : K} {env : Env K n me mi prec qps} (fuel : ℕ) {st : State K n me mi prec qps} (h : HoldsBest eps env.prob.cost st.filter) :
    loop eps env fuel st = (Sqp.loop (smallest env) fuel st.s).map fun s => { st with s := s } := by
  induction fuel generalizing st with
  | zero => rfl
  | succ k ih =>
    rw [SqpFilter.loop, loop_succ, h.pass]
    by_cases hlt : st.s.iter < env.cfg.maxIter
    · rw [if_pos hlt, if_pos (show st.s.iter < (smallest env).cfg.maxIter from hlt)]
      cases Sqp.pass (smallest env) st.s with
      | none => rfl
      | some s =>
        simp only [Option.map_some, Option.bind_some]
        change (if terminated env s = true then _ else _) = Option.map _ (if terminated env s = true then _ else _)
        by_cases ht : terminated env s = true
        · rw [if_pos ht, if_pos ht]; rfl
        · rw [if_neg ht, if_neg ht]
          exact ih (st := { st with s := s }) h
    · rw [if_neg hlt, if_neg (show ¬ st.s.iter < (smallest env).cfg.maxIter from hlt)]
      rfl

/-- **C216.** Once the filter holds a best point, every later call of `solve`, with whatever bounds, constraints, guess, settings and QP solver, behaves like a solver without line search
that takes the step `tau^(line_search_max_iter - 1)` of the QP solution in every iteration; and the filter stays as it is, so this never ends. -/
theorem solve_after_best [NeZero n] {eps : K} {env : Env K n me mi prec qps} {st : State K n me mi prec qps} (h : HoldsBest eps env.prob.cost st.filter) :
    solve eps env st = (Sqp.solve (smallest env) st.s).map fun s => { st with s := s } := by
  unfold SqpFilter.solve firstPass
  have hq := HoldsBest.qpStep (eps := eps) (env := env) (st := ({ s := linearise env (start st.s), filter := st.filter } : State K n me mi prec qps)) h
  rw [solve_eq]
  change Option.bind (Option.map _ (qpStep eps env { s := linearise env (start st.s), filter := st.filter })) _ = _
  rw [hq]
  unfold Sqp.firstPass
  change Option.bind (Option.map _ (Option.map _ (Sqp.qpStep (smallest env) (linearise env (start st.s))))) _ =
    Option.map _ (Option.bind (Option.map (measure env) (Sqp.qpStep (smallest env) (linearise env (start st.s)))) _)
  cases Sqp.qpStep (smallest env) (linearise env (start st.s)) with
  | none => rfl
  | some s =>
    simp only [Option.map_some, Option.bind_some]
    change (if terminated env (measure env s) = true then _ else _) = Option.map _ (if terminated env (measure env s) = true then _ else _)
    by_cases ht : terminated env (measure env s) = true
    · rw [if_pos ht, if_pos ht]; rfl
    · rw [if_neg ht, if_neg ht]
      exact HoldsBest.loop _ (st := { st with s := measure env s }) h

/-- The QP solver together with the preconditioner satisfies the bound on variable `i` exactly when the two bounds are equal. -/
def KeepsFixed (prec : Precond K n (me + mi)) (qps : QPSolver K n (me + mi)) (i : Fin n) : Prop :=
  ∀ pm qm qp mem scaled, qp.xlb i = qp.xub i → prec.compute pm qp = some (mem, scaled) →
    (prec.unscalePair mem ((qps.solve qm scaled).2.1, (qps.solve qm scaled).2.2.1)).1 i = qp.xlb i

theorem smallest_step {env : Env K n me mi prec qps} {i : Fin n} (hk : KeepsFixed prec qps i) {v : K} (hl : env.bd.lbx i = v) (hu : env.bd.ubx i = v) {q s : Sqp.State K n me mi prec qps}
    (hq : q.qp.xlb i = env.bd.lbx i - q.x i ∧ q.qp.xub i = env.bd.ubx i - q.x i) (h : Sqp.qpStep (smallest env) q = some s) :
    s.x i - v = (1 - env.cfg.tau ^ (env.cfg.lineSearchMaxIter - 1).toNat) * (q.x i - v) := by
  obtain ⟨mem, scaled, p, lamK, alpha, logged, h1, h2, -, h4, -, -, h7, -⟩ := Sqp.qpStep_spec h
  have ha : alpha = env.cfg.tau ^ (env.cfg.lineSearchMaxIter - 1).toNat := congrArg Prod.fst h4
  have hp : p i = v - q.x i := by
    have := hk q.precMem q.qpMem q.qp mem scaled (by rw [hq.1, hq.2, hl, hu]) h1
    rw [← h2, hq.1, hl] at this
    exact this
  rw [h7]
  simp only [ha, hp]
  ring

theorem smallest_visited [NeZero n] {env : Env K n me mi prec qps} {i : Fin n} (hk : KeepsFixed prec qps i) {v : K} (hl : env.bd.lbx i = v) (hu : env.bd.ubx i = v)
    {st s : Sqp.State K n me mi prec qps} (h : Sqp.Visited (smallest env) st s) :
    s.x i - v = (1 - env.cfg.tau ^ (env.cfg.lineSearchMaxIter - 1).toNat) ^ s.iter.toNat * (st.x i - v) := by
  induction h with
  | first hp =>
    have hi := (firstPass_spec hp).1
    unfold Sqp.firstPass at hp
    rw [Option.map_eq_some_iff] at hp
    obtain ⟨s2, h2, rfl⟩ := hp
    rw [hi]
    have := smallest_step hk hl hu (q := linearise (smallest env) (start st)) ⟨rfl, rfl⟩ h2
    rw [show (1 : ℤ).toNat = 1 from rfl, pow_one]
    exact this
  | @next w s hv _ _ hp ih =>
    have hi := (pass_spec hp).1
    have hw := (visited_facts hv).1
    obtain ⟨s1, s2, h1, h2, rfl⟩ := pass_parts hp
    obtain ⟨H, -, hs1⟩ := updateLinearisation_spec h1
    have e1 : s1.x = w.x := by rw [hs1]
    have e2 : s1.qp.xlb i = env.bd.lbx i - s1.x i ∧ s1.qp.xub i = env.bd.ubx i - s1.x i := by
      rw [hs1]
      exact ⟨rfl, rfl⟩
    have := smallest_step hk hl hu e2 h2
    have hx : (measure (smallest env) (callback (smallest env) s2)).x = s2.x := (callback_fields (smallest env) s2).1
    rw [hx, this, e1, ih, hi, show (w.iter + 1).toNat = w.iter.toNat + 1 by omega, pow_succ]
    ring

/-- **C216.** After the filter has recorded a best point, fixing a variable to a new value `v`, as a new initial condition in MPC does, has almost no effect: every iteration removes only
the fraction `tau^(line_search_max_iter - 1)` of the remaining difference. -/
theorem fixed_variable_ignored [NeZero n] {eps : K} {env : Env K n me mi prec qps} {st r : State K n me mi prec qps} (hbest : HoldsBest eps env.prob.cost st.filter) {i : Fin n}
    (hk : KeepsFixed prec qps i) {v : K} (hl : env.bd.lbx i = v) (hu : env.bd.ubx i = v) (h : solve eps env st = some r) :
    r.s.x i - v = (1 - env.cfg.tau ^ (env.cfg.lineSearchMaxIter - 1).toNat) ^ r.s.iter.toNat * (st.s.x i - v) ∧ 1 ≤ r.s.iter ∧ r.s.iter ≤ max 1 env.cfg.maxIter ∧ r.filter = st.filter := by
  rw [solve_after_best hbest, Option.map_eq_some_iff] at h
  obtain ⟨s, hs, rfl⟩ := h
  obtain ⟨w, hw, h2⟩ := Sqp.solve_cases hs
  have hx := smallest_visited hk hl hu hw
  obtain ⟨f1, f2, -⟩ := visited_facts hw
  rcases h2 with ⟨-, rfl⟩ | ⟨-, -, rfl⟩ <;> exact ⟨hx, f1, f2, rfl⟩

/-- **C216.** Such a call does not report `SOLVED` unless the guess was within about `eps_prim` of the new value already. -/
theorem fixed_variable_not_solved [NeZero n] {eps : K} {env : Env K n me mi prec qps} {st r : State K n me mi prec qps} (hbest : HoldsBest eps env.prob.cost st.filter)
    (h0 : 0 < env.cfg.tau) (h1 : env.cfg.tau ≤ 1) {i : Fin n} (hk : KeepsFixed prec qps i) {v : K} (hl : env.bd.lbx i = v) (hu : env.bd.ubx i = v) (hN : 1 ≤ env.cfg.maxIter)
    (hfar : env.cfg.epsPrim < (1 - env.cfg.tau ^ (env.cfg.lineSearchMaxIter - 1).toNat) ^ env.cfg.maxIter.toNat * |st.s.x i - v|) (h : solve eps env st = some r) :
    r.s.status = .MAX_ITER_EXCEEDED := by
  obtain ⟨hx, f1, f2, -⟩ := fixed_variable_ignored hbest hk hl hu h
  rw [max_eq_right hN] at f2
  have ha0 : 0 < env.cfg.tau ^ (env.cfg.lineSearchMaxIter - 1).toNat := pow_pos h0 _
  have ha1 : env.cfg.tau ^ (env.cfg.lineSearchMaxIter - 1).toNat ≤ 1 := pow_le_one₀ h0.le h1
  have hb0 : 0 ≤ 1 - env.cfg.tau ^ (env.cfg.lineSearchMaxIter - 1).toNat := by linarith
  have hb1 : 1 - env.cfg.tau ^ (env.cfg.lineSearchMaxIter - 1).toNat ≤ 1 := by linarith
  have hfar' : env.cfg.epsPrim < |r.s.x i - v| := by
    rw [hx, abs_mul, abs_of_nonneg (pow_nonneg hb0 _)]
    exact hfar.trans_le (mul_le_mul_of_nonneg_right (pow_le_pow_of_le_one hb0 hb1 (by omega)) (abs_nonneg _))
  rw [solve_after_best hbest, Option.map_eq_some_iff] at h
  obtain ⟨s, hs, rfl⟩ := h
  obtain ⟨w, hw, h2⟩ := Sqp.solve_cases hs
  obtain ⟨-, -, hst, -, hmv⟩ := visited_facts hw
  rcases h2 with ⟨ht, hsw⟩ | ⟨-, -, rfl⟩
  · exfalso
    have hle : maxConstraintsViolation env.prob env.bd w.x ≤ env.cfg.epsPrim := by
      have : decide (w.maxViolation ≤ env.cfg.epsPrim) = true := by
        unfold terminated at ht
        rw [Bool.and_eq_true] at ht
        exact ht.2
      rw [hmv] at this
      exact of_decide_eq_true this
    have hfar'' : env.cfg.epsPrim < |w.x i - v| := by
      rw [hsw] at hfar'
      exact hfar'
    have hall := ((maxViolation_le_iff env.prob env.bd w.x).mp hle).2.2.2 i
    rw [hl, hu] at hall
    exact absurd hfar'' (not_lt.mpr (abs_le.mpr ⟨by linarith [hall.1], by linarith [hall.2]⟩))
  · exact hst

/-! ### Clearing the filter -/

theorem searchLoop_logged (tau : K) (cost viol : (Fin n → K) → K) (x p : Fin n → K) (f : LSFilter K) (fuel : ℕ) (alpha c c' : K) :
    (searchLoop tau cost viol x p f fuel alpha c).map (fun r => (r.1, r.2.2)) = (searchLoop tau cost viol x p f fuel alpha c').map fun r => (r.1, r.2.2) := by
  cases fuel with
  | zero => rfl
  | succ k => rfl

theorem search_logged {eps : K} {cfg : Settings K} {prob : Problem K n me mi} {bd : Bounds K n mi} {f f' : LSFilter K} {x p : Fin n → K} {c a lg : K} (c' : K)
    (h : search eps cfg prob bd f x p c = some (a, lg, f')) : ∃ lg', search eps cfg prob bd f x p c' = some (a, lg', f') := by
  unfold search at h ⊢
  rw [Option.bind_eq_some_iff] at h
  obtain ⟨f1, h1, h2⟩ := h
  have h3 := searchLoop_logged cfg.tau prob.cost (constraintsViolation eps prob bd) x p f1 (cfg.lineSearchMaxIter - 1).toNat 1 c c'
  rw [h2, Option.map_some, eq_comm, Option.map_eq_some_iff] at h3
  obtain ⟨⟨a', lg', f2⟩, h4, h5⟩ := h3
  simp only [Prod.mk.injEq] at h5
  obtain ⟨rfl, rfl⟩ := h5
  exact ⟨lg', by rw [h1, Option.bind_some, h4]⟩

/-- Two solver objects agree in everything observable except the logged cost, the state of the QP solver and of the preconditioner, and earlier callbacks. -/
def Agree (a a' : State K n me mi prec qps) : Prop := Sqp.Agree a.s a'.s ∧ a.filter = a'.filter

theorem qpStep_agree [NeZero n] {eps : K} {env : Env K n me mi prec qps} (hpr : ∀ m m' qp, prec.compute m qp = prec.compute m' qp)
    (hqs : ∀ m m' qp, (qps.solve m qp).2 = (qps.solve m' qp).2) {f : LSFilter K} {s s' : Sqp.State K n me mi prec qps} {r : State K n me mi prec qps} (hx : s.x = s'.x) (hl : s.lam = s'.lam)
    (hq : s.qp = s'.qp) (hi : s.iter = s'.iter) (hqi : s.qpIter = s'.qpIter) (hst : s.status = s'.status) (hlg : s.lagGradient = s'.lagGradient)
    (h : qpStep eps env ⟨s, f⟩ = some r) : ∃ r', qpStep eps env ⟨s', f⟩ = some r' ∧ Sqp.Agree (measure env r.s) (measure env r'.s) ∧ r.filter = r'.filter := by
  obtain ⟨mem, scaled, -, -, -, -, h1, -⟩ := qpStep_spec h
  have h1' : prec.compute s'.precMem s'.qp = some (mem, scaled) := by rw [← h1, ← hq]; exact hpr _ _ _
  have hs := hqs s.qpMem s'.qpMem scaled
  rw [qpStep_eq h1, Option.map_eq_some_iff] at h
  obtain ⟨⟨alpha, logged, f'⟩, h3, rfl⟩ := h
  simp only at h3
  rw [hs, hx] at h3
  obtain ⟨lg', h4⟩ := search_logged s'.cost h3
  refine ⟨stepped s' mem (qps.solve s'.qpMem scaled).1 (prec.unscalePair mem ((qps.solve s'.qpMem scaled).2.1, (qps.solve s'.qpMem scaled).2.2.1)).1
    (prec.unscalePair mem ((qps.solve s'.qpMem scaled).2.1, (qps.solve s'.qpMem scaled).2.2.1)).2 (prec.unscale mem scaled) (qps.solve s'.qpMem scaled).2.2.2 (alpha, lg', f'), ?_, ?_, rfl⟩
  · rw [qpStep_eq (st := ⟨s', f⟩) h1']
    simp only
    rw [h4]
    rfl
  · constructor <;> simp only [Sqp.measure, stepped, hs, hx, hl, hi, hqi, hst, hlg]

theorem pass_agree [NeZero n] {eps : K} {env : Env K n me mi prec qps} (hpr : ∀ m m' qp, prec.compute m qp = prec.compute m' qp)
    (hqs : ∀ m m' qp, (qps.solve m qp).2 = (qps.solve m' qp).2) {a a' r : State K n me mi prec qps} (ha : Agree a a') (h : pass eps env a = some r) :
    ∃ r', pass eps env a' = some r' ∧ Agree r r' := by
  unfold pass at h
  rw [Option.bind_eq_some_iff] at h
  obtain ⟨s1, h1, h2⟩ := h
  rw [Option.map_eq_some_iff] at h2
  obtain ⟨r1, hr, rfl⟩ := h2
  obtain ⟨ha, hfe⟩ := ha
  obtain ⟨H, hH, hs1⟩ := updateLinearisation_spec h1
  simp only at hH
  rw [ha.qp, ha.stepPrev, ha.x, ha.lam, ha.lagGradient] at hH
  have hu : ∃ s1', updateLinearisation env { a'.s with iter := a'.s.iter + 1 } = some s1' ∧ s1.x = s1'.x ∧ s1.lam = s1'.lam ∧
      s1.qp = s1'.qp ∧ s1.iter = s1'.iter ∧ s1.qpIter = s1'.qpIter ∧ s1.status = s1'.status ∧
      s1.lagGradient = s1'.lagGradient := by
    unfold updateLinearisation
    simp only [hH, Option.map_some]
    refine ⟨_, rfl, ?_⟩
    rw [hs1]
    simp only [ha.x, ha.lam, ha.iter, ha.qpIter, ha.status, and_self]
  obtain ⟨s1', hs1', e1, e2, e3, e4, e5, e6, e7⟩ := hu
  obtain ⟨r', hr', hag, hff⟩ := qpStep_agree hpr hqs e1 e2 e3 e4 e5 e6 e7 hr
  refine ⟨{ r' with s := measure env (callback env r'.s) }, ?_, ?_, hff⟩
  · unfold pass
    rw [hs1', Option.bind_some, ← hfe, hr', Option.map_some]
  · unfold callback
    by_cases hcb : env.cfg.callback = true
    · simp only [if_pos hcb]
      exact ⟨hag.x, hag.lam, hag.lamK, hag.qp, hag.iter, hag.qpIter, hag.status, hag.lagGradient, hag.stepPrev, hag.primalNorm, hag.dualNorm, hag.maxViolation⟩
    · simp only [if_neg hcb]
      exact hag

theorem loop_agree [NeZero n] {eps : K} {env : Env K n me mi prec qps} (hpr : ∀ m m' qp, prec.compute m qp = prec.compute m' qp)
    (hqs : ∀ m m' qp, (qps.solve m qp).2 = (qps.solve m' qp).2) (fuel : ℕ) {a a' r : State K n me mi prec qps} (ha : Agree a a') (h : loop eps env fuel a = some r) :
    ∃ r', loop eps env fuel a' = some r' ∧ Agree r r' := by
  induction fuel generalizing a a' with
  | zero =>
    rw [loop] at h
    exact ⟨a', rfl, Option.some.inj h ▸ ha⟩
  | succ k ih =>
    rw [loop] at h ⊢
    rw [← ha.1.iter]
    by_cases hlt : a.s.iter < env.cfg.maxIter
    · rw [if_pos hlt, Option.bind_eq_some_iff] at h
      rw [if_pos hlt]
      obtain ⟨t, ht, h2⟩ := h
      obtain ⟨t', ht', hag⟩ := pass_agree hpr hqs ha ht
      rw [ht', Option.bind_some, ← terminated_agree hag.1]
      by_cases hte : terminated env t.s = true
      · rw [if_pos hte] at h2 ⊢
        refine ⟨_, rfl, ?_⟩
        rw [← Option.some.inj h2]
        exact ⟨{ hag.1 with status := rfl }, hag.2⟩
      · rw [if_neg hte] at h2 ⊢
        exact ih hag h2
    · rw [if_neg hlt] at h ⊢
      exact ⟨a', rfl, Option.some.inj h ▸ ha⟩

/-- **C216.** After `filter.clear()` the result depends only on the guess and the settings, like that of the default solver (C70): a solver object that has been used before, with other
bounds or another problem, gives the same result as a new one. -/
theorem cleared_history_independent [NeZero n] {eps : K} {env : Env K n me mi prec qps} (hpr : ∀ m m' qp, prec.compute m qp = prec.compute m' qp)
    (hqs : ∀ m m' qp, (qps.solve m qp).2 = (qps.solve m' qp).2) {st st' r : State K n me mi prec qps} (hx : st.s.x = st'.s.x) (hl : st.s.lam = st'.s.lam)
    (hd : st.filter.maxDepth = st'.filter.maxDepth) (hb : st.filter.beta = st'.filter.beta) (h : solve eps env { st with filter := st.filter.clear } = some r) :
    ∃ r', solve eps env { st' with filter := st'.filter.clear } = some r' ∧ Agree r r' := by
  have hcl : st.filter.clear = st'.filter.clear := by simp only [LSFilter.clear, hd, hb]
  rw [hcl] at h
  unfold solve at h ⊢
  rw [Option.bind_eq_some_iff] at h
  obtain ⟨s, hs, h2⟩ := h
  unfold firstPass at hs
  rw [Option.map_eq_some_iff] at hs
  obtain ⟨q, hq, rfl⟩ := hs
  obtain ⟨q', hq', hag, hff⟩ := qpStep_agree hpr hqs (s := linearise env (start st.s)) (s' := linearise env (start st'.s)) (by exact hx) (by exact hl)
    (by simp only [linearise, start, hx, hl]) rfl rfl rfl (by simp only [linearise, start, hx, hl]) hq
  have hf' : firstPass eps env { st' with filter := st'.filter.clear } = some { q' with s := measure env q'.s } := by
    unfold firstPass
    change Option.map _ (qpStep eps env ⟨linearise env (start st'.s), st'.filter.clear⟩) = _
    rw [hq']
    rfl
  rw [hf', Option.bind_some, ← terminated_agree hag]
  by_cases hte : terminated env (measure env q.s) = true
  · rw [if_pos hte] at h2 ⊢
    refine ⟨_, rfl, ?_⟩
    rw [← Option.some.inj h2]
    exact ⟨{ hag with status := rfl }, hff⟩
  · rw [if_neg hte] at h2 ⊢
    exact loop_agree hpr hqs _ (a := { q with s := measure env q.s }) ⟨hag, hff⟩ h2

/-! ### Examples -/

/-- The cost `x²/2` of one variable without constraints. -/
def parkProblem : Problem ℚ 1 0 0 where
  cost := fun x => x 0 ^ 2 / 2
  eq := fun _ => Fin.elim0
  ineq := fun _ => Fin.elim0
  costGrad := fun x _ => x 0
  constr := fun _ => Fin.elim0
  jac := fun _ => Matrix.of fun i => i.elim0
  lagGrad := fun x lam _ => x 0 + lam (Sum.inr 0)
  lagHess := fun _ _ => Matrix.of fun _ _ => 1

/-- The variable is fixed to `v`. -/
def parkBounds (v : ℚ) : Bounds ℚ 1 0 where
  lbx := fun _ => v
  ubx := fun _ => v
  lbg := Fin.elim0
  ubg := Fin.elim0

/-- The exact solution of a QP with one variable and no other constraints. -/
def parkQPS : QPSolver ℚ 1 (0 + 0) where
  Mem := PUnit
  solve := fun u qp =>
    let p : ℚ := max (qp.xlb 0) (min (qp.xub 0) (-qp.h 0 / qp.H 0 0))
    (u, fun _ => p, Sum.elim (fun i => i.elim0) (fun _ => -(qp.H 0 0 * p + qp.h 0)), 1)

/-- The settings of the test: at most 10 iterations, `line_search_max_iter = 10`; valet_parking_mpc_test.cpp:187-188. -/
def parkCfg : Settings ℚ := { Settings.default with maxIter := 10, lineSearchMaxIter := 10 }

def parkEnv (v : ℚ) : Env ℚ 1 0 0 (identityPrecond ℚ 1 (0 + 0)) parkQPS := defaultEnv (1 / 2 ^ 52) parkCfg parkProblem (parkBounds v)

/-- A new solver object with guess `x` and `filter.beta = 0.1` (valet_parking_mpc_test.cpp:191). -/
def parkState (x : ℚ) : State ℚ 1 0 0 (identityPrecond ℚ 1 (0 + 0)) parkQPS where
  filter := { LSFilter.default with beta := 1 / 10 }
  s :=
    { x := fun _ => x, lam := fun _ => 0, lamK := fun _ => 0, qp := formQP (parkBounds 0) (fun _ => 0) (Matrix.of fun _ _ => 0) (fun _ => 0) (Matrix.of fun i => i.elim0) Fin.elim0
      cost := 0, iter := 0, qpIter := 0, status := .INVALID_SETTINGS, lagGradient := fun _ => 0, stepPrev := fun _ => 0, primalNorm := 0, dualNorm := 0, maxViolation := 0
      precMem := PUnit.unit, qpMem := PUnit.unit, callbacks := [] }

/-- **C216**, witness. With the settings of the test the first call of `solve`, with the variable fixed to 0, reports `SOLVED`. After the variable has been fixed to 1 instead, as a new initial
condition would be, the second call ends with `MAX_ITER_EXCEEDED` and a variable below 0.02, while a new solver object started from the same guess, or the same object after
`filter.clear()`, solves the problem in two iterations. -/
theorem second_solve_fails :
    ∃ r1 r2 r3, solve (1 / 2 ^ 52) (parkEnv 0) (parkState 3) = some r1 ∧ r1.s.status = .SOLVED ∧ r1.s.x 0 = 0 ∧
      solve (1 / 2 ^ 52) (parkEnv 1) r1 = some r2 ∧ r2.s.status = .MAX_ITER_EXCEEDED ∧ 0 < r2.s.x 0 ∧ r2.s.x 0 < 2 / 100 ∧
      solve (1 / 2 ^ 52) (parkEnv 1) { r1 with filter := r1.filter.clear } = some r3 ∧ r3.s.status = .SOLVED ∧ r3.s.x 0 = 1 ∧ r3.s.iter ≤ 2 := by
  obtain ⟨r1, hr1⟩ : ∃ r, solve (1 / 2 ^ 52) (parkEnv 0) (parkState 3) = some r := Option.isSome_iff_exists.mp (by decide +kernel)
  obtain ⟨r2, hr2⟩ : ∃ r, (solve (1 / 2 ^ 52) (parkEnv 0) (parkState 3)).bind (fun r1 => solve (1 / 2 ^ 52) (parkEnv 1) r1) = some r :=
    Option.isSome_iff_exists.mp (by decide +kernel)
  obtain ⟨r3, hr3⟩ : ∃ r, (solve (1 / 2 ^ 52) (parkEnv 0) (parkState 3)).bind (fun r1 => solve (1 / 2 ^ 52) (parkEnv 1) { r1 with filter := r1.filter.clear }) = some r :=
    Option.isSome_iff_exists.mp (by decide +kernel)
  have h1 : ((solve (1 / 2 ^ 52) (parkEnv 0) (parkState 3)).map fun r => decide (r.s.status = .SOLVED ∧ r.s.x 0 = 0)) = some true := by decide +kernel
  have h2 : (((solve (1 / 2 ^ 52) (parkEnv 0) (parkState 3)).bind (fun r1 => solve (1 / 2 ^ 52) (parkEnv 1) r1)).map fun r =>
      decide (r.s.status = .MAX_ITER_EXCEEDED ∧ 0 < r.s.x 0 ∧ r.s.x 0 < 2 / 100)) = some true := by decide +kernel
  have h3 : (((solve (1 / 2 ^ 52) (parkEnv 0) (parkState 3)).bind (fun r1 => solve (1 / 2 ^ 52) (parkEnv 1) { r1 with filter := r1.filter.clear })).map fun r =>
      decide (r.s.status = .SOLVED ∧ r.s.x 0 = 1 ∧ r.s.iter ≤ 2)) = some true := by decide +kernel
  rw [hr2, Option.map_some, Option.some.injEq, decide_eq_true_eq] at h2
  rw [hr3, Option.map_some, Option.some.injEq, decide_eq_true_eq] at h3
  rw [hr1, Option.map_some, Option.some.injEq, decide_eq_true_eq] at h1
  rw [hr1, Option.bind_some] at hr2 hr3
  exact ⟨r1, r2, r3, hr1, h1.1, h1.2, hr2, h2.1, h2.2.1, h2.2.2, hr3, h3.1, h3.2.1, h3.2.2⟩

/-- Non-vacuity of C215: from `x = 3` the full step is accepted and the point recorded; the earlier point, which is now dominated, leaves the filter. A second line search from there in a
direction that increases the cost rejects every trial step and takes the ninth power of `tau`. -/
example : ((search (1 / 2 ^ 52) parkCfg parkProblem { parkBounds 0 with lbx := fun _ => -10, ubx := fun _ => 10 } (parkState 3).filter (fun _ => 3) (fun _ => -3) 0).map fun r =>
      decide (r.1 = 1 ∧ r.2.1 = 0 ∧ r.2.2.entries = [(0, 1 / 2 ^ 52)])) = some true ∧
    ((search (1 / 2 ^ 52) parkCfg parkProblem { parkBounds 0 with lbx := fun _ => -10, ubx := fun _ => 10 } { (parkState 3).filter with entries := [(0, 1 / 2 ^ 52)] } (fun _ => 0)
      (fun _ => 4) 0).map fun r => decide (r.1 = (1 / 2) ^ 9 ∧ r.2.2.entries = [(0, 1 / 2 ^ 52)])) = some true := by
  decide +kernel

/-- Non-vacuity of the theorems on accepted iterates: an accepted iteration from a solver whose filter holds the feasible point `x = 3`, with room in the filter. -/
example : ∃ a c : State ℚ 1 0 0 (identityPrecond ℚ 1 (0 + 0)) parkQPS, Room a ∧ 0 ≤ a.filter.beta ∧ (∀ e ∈ a.filter.entries, 0 ≤ e.2) ∧
    point (1 / 2 ^ 52) parkProblem (parkBounds 3) (fun _ => 3) ∈ a.filter.entries ∧
    Accepted (1 / 2 ^ 52) { parkEnv 3 with bd := { parkBounds 3 with lbx := fun _ => 0 } } a c := by
  refine ⟨{ parkState 3 with filter := { (parkState 3).filter with entries := [(9 / 2, 1 / 2 ^ 52)] } }, { parkState 1 with filter := (parkState 3).filter }, ?_, ?_, ?_, ?_, ?_⟩
  · unfold Room
    decide +kernel
  · decide +kernel
  · decide +kernel
  · simp only [List.mem_singleton, point, parkProblem, l1Violation, outside, parkBounds]
    norm_num
  · refine ⟨{ (parkState 3).filter with entries := [(9 / 2, 1 / 2 ^ 52)] }, Or.inr ⟨fun h => ?_, rfl⟩, ?_⟩
    · have := h (9 / 2, 1 / 2 ^ 52) (List.mem_singleton_self _)
      simp only [SufficientlyBetter, point, parkState, parkEnv, defaultEnv, parkProblem, l1Violation, outside, parkBounds, LSFilter.default] at this
      norm_num at this
    · intro e he
      rw [List.mem_singleton.mp he]
      left
      simp only [point, parkState, parkEnv, defaultEnv, parkProblem, LSFilter.default]
      norm_num

/-- Non-vacuity of C216: the filter left by the first call holds a best point, and the QP solver of the example keeps fixed variables. -/
example : HoldsBest (1 / 2 ^ 52) parkProblem.cost { (parkState 3).filter with entries := [(0, 1 / 2 ^ 52)] } ∧ KeepsFixed (identityPrecond ℚ 1 (0 + 0)) parkQPS 0 ∧
    ((solve (1 / 2 ^ 52) (parkEnv 0) (parkState 3)).map fun r => r.filter.entries) = some [(0, 1 / 2 ^ 52)] ∧
    parkCfg.epsPrim < (1 - parkCfg.tau ^ (parkCfg.lineSearchMaxIter - 1).toNat) ^ parkCfg.maxIter.toNat * |(0 : ℚ) - 1| := by
  refine ⟨⟨by decide +kernel, _, List.mem_singleton_self _, by norm_num, le_refl _, fun x => ?_⟩, ?_, by decide +kernel, by decide +kernel⟩
  · simp only [parkProblem]
    positivity
  · rintro pm qm qp mem scaled hb hc
    simp only [identityPrecond, Option.some.injEq, Prod.mk.injEq] at hc
    obtain ⟨-, rfl⟩ := hc
    change max (qp.xlb 0) (min (qp.xub 0) _) = _
    rw [← hb]
    exact max_eq_left (min_le_left _ _)

end PolyMPC.SqpFilter
