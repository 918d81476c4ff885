import Verif.Lemmas.Filter
import Mathlib.Tactic.IntervalCases

/-!
# Properties C20, C21, C22: the line-search filter
-/

set_option linter.unusedSectionVars false

namespace PolyMPC.Filter
open PolyMPC.Spec.Filter

variable {K : Type*} [Field K] [LinearOrder K]

/-! ## C20 size bound and undefined behaviour -/

/-- C20. With a positive depth, no history of operations makes the filter larger than its depth. -/
theorem filter_size_bounded (f f' : LSFilter K) (ops : List (Op K)) (hd : 0 < f.maxDepth)
    (hl : (f.entries.length : ℤ) ≤ f.maxDepth) (h : f.run ops = some f') :
    (f'.entries.length : ℤ) ≤ f.maxDepth := by
  induction ops generalizing f with
  | nil => simp only [LSFilter.run, Option.some.injEq] at h; subst h; exact hl
  | cons op ops ih =>
    simp only [LSFilter.run] at h
    cases hs : f.step op with
    | none => simp [hs] at h
    | some f1 =>
      simp only [hs, Option.bind_some] at h
      have hf := step_frame hs
      have := ih f1 (by rw [hf.1]; exact hd) (by rw [hf.1]; exact step_length hd hl hs) h
      rwa [hf.1] at this

/-- C20. A default constructed filter never holds more than ten entries. -/
theorem default_filter_size_bounded (f' : LSFilter K) (ops : List (Op K))
    (h : (LSFilter.default : LSFilter K).run ops = some f') : f'.entries.length ≤ 10 := by
  have := filter_size_bounded _ f' ops (by simp [LSFilter.default]) (by simp [LSFilter.default]) h
  simpa [LSFilter.default] using this

/-- C20. `add` is undefined exactly for an empty filter of depth zero. -/
theorem add_undefined_iff (f : LSFilter K) (c v : K) (hd : -(2 ^ 31) ≤ f.maxDepth) :
    f.add c v = none ↔ f.entries = [] ∧ f.maxDepth = 0 := by
  unfold LSFilter.add
  split
  · rename_i h
    simp only [reduceCtorEq, false_iff, not_and]
    intro he h0
    rw [he, h0] at h
    simp [sizeLtDepth] at h
  · rename_i h
    split
    · rename_i hp
      rw [popBack_eq_none] at hp
      simp only [hp, true_and, true_iff]
      rw [hp] at h
      simp only [sizeLtDepth, List.length_nil, Nat.cast_zero, decide_eq_true_eq, not_lt] at h
      split at h <;> omega
    · rename_i l hp
      simp only [reduceCtorEq, false_iff, not_and]
      intro he
      simp [he, popBack] at hp

/-- C20. `remove_one` is undefined exactly on an empty filter. -/
theorem removeOne_undefined_iff (f : LSFilter K) : f.removeOne = none ↔ f.entries = [] := by
  unfold LSFilter.removeOne
  split
  · rename_i hp; simpa [popBack_eq_none] using hp
  · rename_i l hp
    simp only [reduceCtorEq, false_iff]
    exact (popBack_eq_some.mp hp).1

/-- C20. With a positive depth a history of additions and clears is never undefined. -/
theorem adds_and_clears_defined (f : LSFilter K) (ops : List (Op K)) (hd : 0 < f.maxDepth)
    (hops : ∀ op ∈ ops, op ≠ Op.removeOne) : (f.run ops).isSome := by
  induction ops generalizing f with
  | nil => simp [LSFilter.run]
  | cons op ops ih =>
    simp only [LSFilter.run]
    cases hs : f.step op with
    | none =>
      exfalso
      cases op with
      | add c v =>
        simp only [LSFilter.step] at hs
        have := (add_undefined_iff f c v (by omega)).mp hs
        omega
      | removeOne => exact hops _ (by simp) rfl
      | clear => simp [LSFilter.step] at hs
    | some f1 =>
      simp only [Option.bind_some]
      exact ih f1 (by rw [(step_frame hs).1]; exact hd) (fun op h => hops op (by simp [h]))

/-- Non-vacuity of C20: a depth-two rational filter after four additions and a removal. -/
example : ∃ f', ({ entries := [], maxDepth := 2, beta := 1/10 } : LSFilter ℚ).run
    [.add 5 1, .add 4 2, .add 3 3, .removeOne, .add 1 7] = some f' ∧ f'.entries = [(1, 7), (3, 3)] := by
  refine ⟨_, rfl, ?_⟩
  decide +kernel

/-! ## C21 acceptance logic -/

/-- C21. `is_dominated` decides whether some entry is at least as good in both coordinates. -/
theorem isDominated_iff (f : LSFilter K) (c v : K) :
    f.isDominated c v = true ↔ ∃ e ∈ f.entries, Dominates e (c, v) :=
  isDominatedLoop_iff c v f.entries

/-- C21. `is_acceptable` holds exactly when the point is sufficiently better than every entry. -/
theorem isAcceptable_iff (f : LSFilter K) (c v : K) :
    f.isAcceptable c v = true ↔ ∀ e ∈ f.entries, SufficientlyBetter f.beta (c, v) e := by
  unfold LSFilter.isAcceptable SufficientlyBetter
  rw [isAcceptableLoop_iff]
  refine forall_congr' fun e => forall_congr' fun _ => ?_
  rw [not_and_or, not_le, not_le]

/-- C21. Right after it has been added, a point and everything it dominates is rejected. -/
theorem added_point_dominated (f f' : LSFilter K) (c v c' v' : K) (h : f.add c v = some f')
    (hw : Dominates (c, v) (c', v')) : f'.isDominated c' v' = true :=
  (isDominated_iff f' c' v').mpr ⟨(c, v), add_head h, hw⟩

/-- C21. A dominated point is not acceptable, if entries have nonnegative violation and `beta ≥ 0`. -/
theorem dominated_not_acceptable [IsStrictOrderedRing K] (f : LSFilter K) (c v : K) (hb : 0 ≤ f.beta)
    (hv : ∀ e ∈ f.entries, 0 ≤ e.2) (h : f.isDominated c v = true) : f.isAcceptable c v = false := by
  obtain ⟨e, he, h1, h2⟩ := (isDominated_iff f c v).mp h
  by_contra hc
  rw [Bool.not_eq_false, isAcceptable_iff] at hc
  have hm := mul_nonneg hb (hv e he)
  rcases hc e he with h' | h' <;> simp only [] at h' <;> simp only [] at h1 h2 <;> linarith

/-- C21. Acceptability is monotone: improving both coordinates keeps a point acceptable. -/
theorem acceptable_mono (f : LSFilter K) (c v c' v' : K) (hw : Dominates (c', v') (c, v))
    (h : f.isAcceptable c v = true) : f.isAcceptable c' v' = true := by
  rw [isAcceptable_iff] at h ⊢
  intro e he
  rcases h e he with h' | h'
  · exact Or.inl (lt_of_le_of_lt hw.1 h')
  · exact Or.inr (lt_of_le_of_lt hw.2 h')

/-- Adding the points `ps` one after the other. -/
def addAll (f : LSFilter K) (ps : List (K × K)) : Option (LSFilter K) :=
  f.run (ps.map fun p => Op.add p.1 p.2)

/-- In the history `ops` the filter is never full when an operation starts. -/
def NeverFull (f : LSFilter K) (ops : List (Op K)) : Prop :=
  ∀ k < ops.length, ∀ g, f.run (ops.take k) = some g → (g.entries.length : ℤ) < f.maxDepth

/-- C21. As long as the filter has not been filled, every point that was ever added (and everything it dominates)
stays rejected. -/
theorem added_points_stay_dominated (f f' : LSFilter K) (ps : List (K × K)) (hd : 0 < f.maxDepth)
    (hroom : NeverFull f (ps.map fun p => Op.add p.1 p.2)) (h : addAll f ps = some f')
    (p q : K × K) (hp : p ∈ ps ∨ p ∈ f.entries) (hw : Dominates p q) : f'.isDominated q.1 q.2 = true := by
  induction ps generalizing f p with
  | nil =>
    simp only [addAll, List.map_nil, LSFilter.run, Option.some.injEq] at h
    subst h
    exact (isDominated_iff _ _ _).mpr ⟨p, by simpa using hp, hw⟩
  | cons a ps ih =>
    have hs : sizeLtDepth f.entries.length f.maxDepth = true := by
      rw [sizeLtDepth_iff hd.le]
      exact hroom 0 (by simp) f (by simp [LSFilter.run])
    have hroom' := hroom
    simp only [addAll, List.map_cons, LSFilter.run, LSFilter.step, add_room hs, Option.bind_some] at h
    set f1 : LSFilter K :=
      { f with entries := (a.1, a.2) :: f.entries.filter (fun e => !dominatedBy a.1 a.2 e) } with hf1
    have hroom1 : NeverFull f1 (ps.map fun p => Op.add p.1 p.2) := by
      intro k hk g hg
      refine hroom' (k + 1) (by simpa using hk) g ?_
      simp only [List.map_cons, List.take_succ_cons, LSFilter.run, LSFilter.step, add_room hs, Option.bind_some]
      exact hg
    -- some point at least as good as `p` is among the remaining points or the entries of `f1`
    have key : ∃ r, (r ∈ ps ∨ r ∈ f1.entries) ∧ Dominates r q := by
      rcases hp with hp | hp
      · rcases List.mem_cons.mp hp with rfl | hp
        · exact ⟨p, Or.inr (by simp [hf1]), hw⟩
        · exact ⟨p, Or.inl hp, hw⟩
      · by_cases hd : dominatedBy a.1 a.2 p = true
        · rw [dominatedBy_iff] at hd
          exact ⟨a, Or.inr (by simp [hf1]), ⟨le_trans hd.1 hw.1, le_trans hd.2 hw.2⟩⟩
        · exact ⟨p, Or.inr (by simp [hf1, hp, hd]), hw⟩
    obtain ⟨r, hr, hrw⟩ := key
    exact ih f1 (by simpa [hf1] using hd) hroom1 h r hr hrw

/-- Non-vacuity of C21: an acceptable and an unacceptable point of a rational filter. -/
example : let f : LSFilter ℚ := { entries := [(3, 1), (1, 4)], maxDepth := 10, beta := 1/100000 }
    f.isDominated 4 2 = true ∧ f.isAcceptable 4 2 = false ∧ f.isAcceptable 2 2 = true ∧
      f.isDominated 2 2 = false ∧ (∀ e ∈ f.entries, 0 ≤ e.2) ∧ 0 ≤ f.beta := by
  decide +kernel

/-- Non-vacuity of `added_points_stay_dominated`. -/
example : ∃ f', addAll (LSFilter.default : LSFilter ℚ) [(3, 3), (2, 2), (5, 1)] = some f' ∧
    f'.entries = [(5, 1), (2, 2)] ∧ f'.isDominated 3 3 = true := by
  refine ⟨_, rfl, ?_⟩
  decide +kernel

/-- The retained-rejection property fails once the filter is full: with depth 2 the first point is evicted. -/
theorem added_points_forgotten_when_full :
    ∃ f', addAll ({ entries := [], maxDepth := 2, beta := 0 } : LSFilter ℚ) [(1, 3), (2, 2), (3, 1)] = some f' ∧
      f'.isDominated 1 3 = false := by
  refine ⟨_, rfl, ?_⟩
  decide +kernel

/-! ## C22 mutual non-domination -/

/-- C22, one addition. Adding a non-dominated point to a filter that is not full keeps the entries mutually
non-dominated. -/
theorem mutual_nondomination_add (f f' : LSFilter K) (c v : K)
    (hroom : (f.entries.length : ℤ) < f.maxDepth)
    (hinv : MutuallyNonDominated f.entries) (hnd : f.isDominated c v = false)
    (h : f.add c v = some f') : MutuallyNonDominated f'.entries := by
  have hs : sizeLtDepth f.entries.length f.maxDepth = true := by
    rw [sizeLtDepth_iff (by omega)]; omega
  rw [add_room hs] at h
  cases h
  refine List.Pairwise.cons ?_ (hinv.filter _)
  intro e he
  rw [List.mem_filter] at he
  obtain ⟨he, hd⟩ := he
  constructor
  · intro hdom
    have : dominatedBy c v e = true := (dominatedBy_iff c v e).mpr hdom
    simp [this] at hd
  · intro hdom
    have : f.isDominated c v = true := (isDominated_iff f c v).mpr ⟨e, he, hdom⟩
    rw [this] at hnd; cases hnd

/-- C22. In every history of operations in which the filter is never full and each added point is non-dominated at the
time it is added, the entries are mutually non-dominated at the end. -/
theorem mutual_nondomination_until_full (f f' : LSFilter K) (ops : List (Op K)) (hroom : NeverFull f ops)
    (hinv : MutuallyNonDominated f.entries)
    (hnd : ∀ k (hk : k < ops.length) c v, ops[k] = Op.add c v → ∀ g, f.run (ops.take k) = some g →
      g.isDominated c v = false)
    (h : f.run ops = some f') : MutuallyNonDominated f'.entries := by
  induction ops generalizing f with
  | nil => simp only [LSFilter.run, Option.some.injEq] at h; subst h; exact hinv
  | cons op ops ih =>
    have h' := h
    simp only [LSFilter.run] at h
    cases hs : f.step op with
    | none => simp [hs] at h
    | some f1 =>
      simp only [hs, Option.bind_some] at h
      have hcons : ∀ qs, f.run (op :: qs) = f1.run qs := by intro qs; simp [LSFilter.run, hs]
      refine ih f1 ?_ ?_ ?_ h
      · intro k hk g hg
        rw [(step_frame hs).1]
        exact hroom (k + 1) (by simpa using hk) g (by rw [List.take_succ_cons, hcons]; exact hg)
      · cases op with
        | add c v =>
          exact mutual_nondomination_add f f1 c v (hroom 0 (by simp) f (by simp [LSFilter.run])) hinv
            (hnd 0 (by simp) c v (by simp) f (by simp [LSFilter.run])) hs
        | removeOne =>
          simp only [LSFilter.step, LSFilter.removeOne] at hs
          split at hs
          · cases hs
          · rename_i l hl
            cases hs
            obtain ⟨_, rfl⟩ := popBack_eq_some.mp hl
            exact hinv.sublist (List.dropLast_sublist _)
        | clear =>
          simp only [LSFilter.step, LSFilter.clear] at hs
          cases hs
          exact List.Pairwise.nil
      · intro k hk c v hop g hg
        exact hnd (k + 1) (by simpa using hk) c v (by simpa using hop) g
          (by rw [List.take_succ_cons, hcons]; exact hg)

/-- C22, what happens afterwards: the room hypothesis cannot be dropped. Adding the non-dominated point `(0, 0)` to the full, mutually
non-dominated filter `[(2,1), (1,2)]` leaves `(2, 1)` in place although `(0, 0)` dominates it. -/
theorem mutual_nondomination_fails_when_full :
    ∃ (f f' : LSFilter ℚ), 0 < f.maxDepth ∧ MutuallyNonDominated f.entries ∧ f.isDominated 0 0 = false ∧
      f.add 0 0 = some f' ∧ ¬ MutuallyNonDominated f'.entries := by
  refine ⟨{ entries := [(2, 1), (1, 2)], maxDepth := 2, beta := 0 }, _, by decide, ?_, by decide +kernel, rfl, ?_⟩
  · simp [MutuallyNonDominated, Dominates]
  · simp [MutuallyNonDominated, Dominates]

/-- Non-vacuity of C22. -/
example : let f : LSFilter ℚ := { entries := [(2, 1), (1, 2)], maxDepth := 3, beta := 0 }
    MutuallyNonDominated f.entries ∧ f.isDominated 0 3 = false ∧ (f.entries.length : ℤ) < f.maxDepth := by
  refine ⟨by simp [MutuallyNonDominated, Dominates], by decide +kernel, by decide⟩

/-- Non-vacuity of the history theorems: a history with additions and a removal that never fills a depth-three filter
and only adds non-dominated points. -/
example : let f : LSFilter ℚ := { entries := [], maxDepth := 3, beta := 0 }
    let ops : List (Op ℚ) := [.add 3 3, .add 2 4, .removeOne, .add 1 5]
    NeverFull f ops ∧ (f.run ops).map (·.entries) = some [(1, 5), (2, 4)] ∧
    (∀ k (hk : k < ops.length) c v, ops[k] = Op.add c v → ∀ g, f.run (ops.take k) = some g →
      g.isDominated c v = false) := by
  refine ⟨?_, by decide +kernel, ?_⟩
  · intro k hk g hg
    simp only [List.length_cons, List.length_nil] at hk
    interval_cases k <;> (cases hg; decide +kernel)
  · intro k hk c v hop g hg
    simp only [List.length_cons, List.length_nil] at hk
    interval_cases k
    · cases hg; cases hop; decide +kernel
    · cases hg; cases hop; decide +kernel
    · cases hop
    · cases hg; cases hop; decide +kernel

end PolyMPC.Filter
