import Verif.Props.GenericOcp

/-!
# C134, C135: the optimal control object over calls
-/

set_option linter.unusedSectionVars false

namespace PolyMPC.GenOcp

open PolyMPC.Ocp PolyMPC.CasCheb PolyMPC.Spec

variable {K : Type} [Field K] [LinearOrder K] [IsStrictOrderedRing K]

/-! ### C134: `solve` -/

/-- **C134.** The box given to `solve` bounds the state at the initial time (the last node) of what `get_optimal_trajectory` returns, whenever
the solver respects the bounds, for positive scaling factors. For a negative factor the bounds are exchanged. -/
theorem solve_initial {d : Dims} (A : Appr d K) (sc : Scale K) (S : Solver K) (lb0 ub0 : ℕ → K) (X0 lamX lamG : Option (ℕ → K)) (o : Obj K)
    (hA : 0 < A.npx) (hS : ∀ a r, within (a.lbx r) (a.ubx r) ((S a).1 r)) {i : ℕ} (hi : i < d.NX) :
    (0 < sc.x i → lb0 i ≤ getTrajectory d sc (solve A sc S lb0 ub0 X0 lamX lamG o) i (A.npx - 1) ∧
      getTrajectory d sc (solve A sc S lb0 ub0 X0 lamX lamG o) i (A.npx - 1) ≤ ub0 i) ∧
    (sc.x i < 0 → ub0 i ≤ getTrajectory d sc (solve A sc S lb0 ub0 X0 lamX lamG o) i (A.npx - 1) ∧
      getTrajectory d sc (solve A sc S lb0 ub0 X0 lamX lamG o) i (A.npx - 1) ≤ lb0 i) := by
  obtain ⟨m, hm⟩ : ∃ m, A.npx = m + 1 := ⟨A.npx - 1, by omega⟩
  have hx : xEnd A - d.NX = m * d.NX := by unfold xEnd; rw [hm, Nat.add_mul, Nat.one_mul, Nat.add_sub_cancel]
  have hx' : xEnd A = m * d.NX + d.NX := by unfold xEnd; rw [hm, Nat.add_mul, Nat.one_mul]
  have hc : xEnd A - d.NX ≤ m * d.NX + i ∧ m * d.NX + i < xEnd A := by rw [hx, hx']; omega
  have h := hS (solve A sc S lb0 ub0 X0 lamX lamG o).arg (m * d.NX + i)
  have el : (solve A sc S lb0 ub0 X0 lamX lamG o).arg.lbx (m * d.NX + i) = some (sc.x i * lb0 i) := by
    show (if _ then some _ else _) = _
    rw [if_pos hc, hx, Nat.add_sub_cancel_left]
  have eu : (solve A sc S lb0 ub0 X0 lamX lamG o).arg.ubx (m * d.NX + i) = some (sc.x i * ub0 i) := by
    show (if _ then some _ else _) = _
    rw [if_pos hc, hx, Nat.add_sub_cancel_left]
  rw [el, eu] at h
  have h1 := h.1 _ rfl
  have h2 := h.2 _ rfl
  rw [hm, Nat.add_sub_cancel]
  unfold getTrajectory
  generalize he : (solve A sc S lb0 ub0 X0 lamX lamG o).nlpX (m * d.NX + i) = y
  have he' : (S (solve A sc S lb0 ub0 X0 lamX lamG o).arg).1 (m * d.NX + i) = y := he
  rw [he'] at h1 h2
  constructor
  · intro hp
    exact ⟨(le_inv_mul_iff₀ hp).2 h1, (inv_mul_le_iff₀ hp).2 h2⟩
  · intro hn
    have e : y = sc.x i * ((sc.x i)⁻¹ * y) := by rw [mul_inv_cancel_left₀ hn.ne]
    rw [e] at h1 h2
    exact ⟨(mul_le_mul_left_of_neg hn).1 h2, (mul_le_mul_left_of_neg hn).1 h1⟩

/-- **C134.** The last node of the states is the initial time, for `Chebyshev` (`SoftChebyshev` has the same nodes) and for `MSChebyshev`. -/
theorem initial_node (d : Dims) (ND : ℕ) (A : Approx K) (hS : 1 ≤ d.S) (hN : 1 ≤ d.N) (t0 tf : ℝ) :
    (cheb d ND A).npx - 1 = (d.S - 1) * d.N + d.N ∧ (ms d ND A).npx - 1 = (d.S - 1) * (d.N + 1) + d.N ∧
    segTime d.S d.N t0 tf (d.S - 1) d.N = t0 := by
  obtain ⟨m, hm⟩ : ∃ m, d.S = m + 1 := ⟨d.S - 1, by omega⟩
  refine ⟨?_, ?_, ?_⟩
  · show d.S * d.N + 1 - 1 = _
    rw [hm, Nat.add_sub_cancel, Nat.add_sub_cancel]; ring
  · show d.S * (d.N + 1) - 1 = _
    rw [hm, Nat.add_sub_cancel, Nat.add_mul, Nat.one_mul]; omega
  · unfold segTime
    have hN' : (d.N : ℝ) ≠ 0 := by exact_mod_cast (by omega : d.N ≠ 0)
    have hS' : ((m : ℝ) + 1) ≠ 0 := by positivity
    rw [show (d.N : ℝ) * (Real.pi / d.N) = Real.pi by field_simp, Real.cos_pi, hm]
    push_cast [Nat.add_sub_cancel]
    field_simp
    ring

/-- The arguments of a call of `solve`. -/
structure Call (K : Type) where
  lb0 : ℕ → K
  ub0 : ℕ → K
  X0 : Option (ℕ → K) := none
  lamX : Option (ℕ → K) := none
  lamG : Option (ℕ → K) := none

/-- A sequence of calls. -/
def solves {d : Dims} (A : Appr d K) (sc : Scale K) (S : Solver K) (cs : List (Call K)) (o : Obj K) : Obj K :=
  cs.foldl (fun o c => solve A sc S c.lb0 c.ub0 c.X0 c.lamX c.lamG o) o

section Calls
variable {d : Dims} (A : Appr d K) (sc : Scale K) (S : Solver K)

theorem solves_append (cs : List (Call K)) (c : Call K) (o : Obj K) :
    solves A sc S (cs ++ [c]) o = solve A sc S c.lb0 c.ub0 c.X0 c.lamX c.lamG (solves A sc S cs o) := by
  unfold solves; rw [List.foldl_append]; rfl

/-- **C134.** Over any sequence of calls, `solve` changes no bound but those of the initial state, no parameter and no mapping; the bounds of
the initial state are those of the last call. -/
theorem solves_frame (cs : List (Call K)) (o : Obj K) :
    (∀ i, (i < xEnd A - d.NX ∨ xEnd A ≤ i) → (solves A sc S cs o).arg.lbx i = o.arg.lbx i ∧ (solves A sc S cs o).arg.ubx i = o.arg.ubx i) ∧
    (solves A sc S cs o).arg.p = o.arg.p ∧ (solves A sc S cs o).map = o.map := by
  induction cs using List.reverseRecOn with
  | nil => exact ⟨fun _ _ => ⟨rfl, rfl⟩, rfl, rfl⟩
  | append_singleton cs c ih =>
    rw [solves_append]
    refine ⟨fun i hi => ?_, ih.2.1, ih.2.2⟩
    have hc : ¬ (xEnd A - d.NX ≤ i ∧ i < xEnd A) := by omega
    exact ⟨(if_neg hc).trans (ih.1 i hi).1, (if_neg hc).trans (ih.1 i hi).2⟩

/-- **C134 (negative).** The object never starts from its last solution. In any sequence of calls without a guess, the guess for the controls,
the parameters and the slack variables is what it was before (zero after the constructor), and the guess for the states is the scaled
midpoint of the last box at every node, whatever the solver returned. -/
theorem guess_not_solution (cs : List (Call K)) (c : Call K) (o : Obj K) (h : ∀ c' ∈ cs, c'.X0 = none) (hc : c.X0 = none) :
    (∀ i, xEnd A ≤ i → (solves A sc S (cs ++ [c]) o).arg.x0 i = o.arg.x0 i) ∧
    ∀ k < A.npx, ∀ i < d.NX, (solves A sc S (cs ++ [c]) o).arg.x0 (k * d.NX + i) = sc.x i * (1 / 2 * (c.lb0 i + c.ub0 i)) := by
  have key : ∀ cs : List (Call K), (∀ c' ∈ cs, c'.X0 = none) → ∀ i, xEnd A ≤ i → (solves A sc S cs o).arg.x0 i = o.arg.x0 i := by
    intro cs
    induction cs using List.reverseRecOn with
    | nil => exact fun _ _ _ => rfl
    | append_singleton cs c ih =>
      intro h i hi
      rw [solves_append, h c (by simp)]
      exact (if_neg (by omega)).trans (ih (fun c' h' => h c' (by simp [h'])) i hi)
  refine ⟨key _ fun c' h' => ?_, fun k hk i hi => ?_⟩
  · rcases List.mem_append.1 h' with h' | h'
    · exact h c' h'
    · rw [List.mem_singleton.1 h', hc]
  · rw [solves_append, hc]
    refine (if_pos (blk_le hi hk)).trans ?_
    rw [mod_blk k hi]

/-- **C134.** A guess that was given once stays the guess for controls, parameters and slack variables in all later calls without one; the
multipliers likewise, all of them. -/
theorem given_once (cs : List (Call K)) (c : Call K) (o : Obj K) :
    (∀ v, c.X0 = some v → (∀ c' ∈ cs, c'.X0 = none) → ∀ i, xEnd A ≤ i → (solves A sc S (c :: cs) o).arg.x0 i = v i) ∧
    (∀ v, c.lamX = some v → (∀ c' ∈ cs, c'.lamX = none) → (solves A sc S (c :: cs) o).arg.lamX0 = some v) ∧
    ∀ v, c.lamG = some v → (∀ c' ∈ cs, c'.lamG = none) → (solves A sc S (c :: cs) o).arg.lamG0 = some v := by
  have e : solves A sc S (c :: cs) o = solves A sc S cs (solve A sc S c.lb0 c.ub0 c.X0 c.lamX c.lamG o) := rfl
  rw [e]
  refine ⟨fun v hv h i hi => ?_, fun v hv h => ?_, fun v hv h => ?_⟩
  · have : (solves A sc S cs (solve A sc S c.lb0 c.ub0 c.X0 c.lamX c.lamG o)).arg.x0 i = (solve A sc S c.lb0 c.ub0 c.X0 c.lamX c.lamG o).arg.x0 i := by
      rcases List.eq_nil_or_concat cs with rfl | ⟨l, b, rfl⟩
      · rfl
      · rw [List.concat_eq_append] at h ⊢
        exact (guess_not_solution A sc S l b _ (fun c' h' => h c' (by simp [h'])) (h b (by simp))).1 i hi
    rw [this, hv]; rfl
  · induction cs using List.reverseRecOn with
    | nil => rw [hv]; rfl
    | append_singleton cs b ih =>
      rw [solves_append, h b (by simp)]
      exact ih rfl fun c' h' => h c' (by simp [h'])
  · induction cs using List.reverseRecOn with
    | nil => rw [hv]; rfl
    | append_singleton cs b ih =>
      rw [solves_append, h b (by simp)]
      exact ih rfl fun c' h' => h c' (by simp [h'])

end Calls

/-! ### C135: parameters by name -/

theorem assign_iff {α : Type} {n a b m : ℕ} {v w u : ℕ → α} (h : assign n v a b m w = some u) :
    b ≤ n ∧ (m = b - a ∨ m = 1) ∧ (∀ i, (i < a ∨ b ≤ i) → u i = v i) ∧ ∀ i, a ≤ i → i < b → u i = if m = b - a then w (i - a) else w 0 := by
  unfold assign at h
  by_cases h1 : n < b
  · rw [if_pos h1] at h; cases h
  · rw [if_neg h1] at h
    by_cases h2 : m = b - a
    · rw [if_pos h2] at h
      cases h
      refine ⟨by omega, Or.inl h2, fun i hi => if_neg (by omega), fun i h3 h4 => ?_⟩
      rw [if_pos h2]; exact if_pos ⟨h3, h4⟩
    · rw [if_neg h2] at h
      by_cases h3 : m = 1
      · rw [if_pos h3] at h
        cases h
        refine ⟨by omega, Or.inr h3, fun i hi => if_neg (by omega), fun i h4 h5 => ?_⟩
        rw [if_neg h2]; exact if_pos ⟨h4, h5⟩
      · rw [if_neg h3] at h; cases h

theorem assign_ok {α : Type} {n a b m : ℕ} (v w : ℕ → α) (h1 : b ≤ n) (h2 : m = b - a ∨ m = 1) : ∃ u, assign n v a b m w = some u := by
  unfold assign
  rw [if_neg (by omega)]
  by_cases h : m = b - a
  · exact ⟨_, if_pos h⟩
  · rw [if_neg h]; exact ⟨_, if_pos (h2.resolve_left h)⟩

/-- **C135.** A named parameter. After `set_parameter_mapping(name, (a, b))`, `set_parameters(name, value)` succeeds iff the range lies in the
parameter vector and the value has its length or length one. It then changes exactly the entries of the range, to the value (to its only
entry), and nothing else of the object. -/
theorem named_parameter (name : String) (a b m : ℕ) (v : ℕ → K) (o : Obj K) :
    ((∃ o', setNamed name m v (setMapping name (a, b) o) = some o') ↔ b ≤ o.arg.nP ∧ (m = b - a ∨ m = 1)) ∧
    ∀ o', setNamed name m v (setMapping name (a, b) o) = some o' →
      (∀ i, (i < a ∨ b ≤ i) → o'.arg.p i = o.arg.p i) ∧ (∀ i, a ≤ i → i < b → o'.arg.p i = if m = b - a then v (i - a) else v 0) ∧
      o'.arg.lbx = o.arg.lbx ∧ o'.arg.ubx = o.arg.ubx ∧ o'.arg.x0 = o.arg.x0 ∧ o'.arg.nP = o.arg.nP ∧ o'.map name = some (a, b) ∧
      ∀ s, s ≠ name → o'.map s = o.map s := by
  have e : setNamed name m v (setMapping name (a, b) o)
      = (assign o.arg.nP o.arg.p a b m v).map fun p => { setMapping name (a, b) o with arg := { o.arg with p := p } } := by
    unfold setNamed
    rw [show (setMapping name (a, b) o).map name = some (a, b) from if_pos rfl]
    show (assign o.arg.nP o.arg.p a b m v).bind _ = _
    cases assign o.arg.nP o.arg.p a b m v <;> rfl
  rw [e]
  constructor
  · constructor
    · rintro ⟨o', h⟩
      obtain ⟨p, hp, -⟩ := Option.map_eq_some_iff.1 h
      exact ⟨(assign_iff hp).1, (assign_iff hp).2.1⟩
    · rintro ⟨h1, h2⟩
      obtain ⟨u, hu⟩ := assign_ok o.arg.p v h1 h2
      exact ⟨_, by rw [hu]; rfl⟩
  · intro o' h
    obtain ⟨p, hp, rfl⟩ := Option.map_eq_some_iff.1 h
    exact ⟨(assign_iff hp).2.2.1, (assign_iff hp).2.2.2, rfl, rfl, rfl, rfl, if_pos rfl, fun s hs => if_neg hs⟩

/-- **C135.** A name without a mapping is refused; `set_parameters(vector)` accepts exactly vectors of the length of the parameters. -/
theorem unknown_name (name : String) (m : ℕ) (v : ℕ → K) (o : Obj K) :
    (o.map name = none → setNamed name m v o = none) ∧
    ((∃ o', setParameters m v o = some o') ↔ m = o.arg.nP) ∧ ∀ o', setParameters m v o = some o' → o'.arg.p = v ∧ o'.map = o.map := by
  refine ⟨fun h => by unfold setNamed; rw [h]; rfl, ⟨?_, fun h => ⟨_, if_pos h⟩⟩, fun o' h => ?_⟩
  · rintro ⟨o', h⟩
    by_contra hc
    unfold setParameters at h
    rw [if_neg hc] at h; cases h
  · unfold setParameters at h
    split at h
    · cases h; exact ⟨rfl, rfl⟩
    · cases h

/-- **C135 (negative).** With `MSChebyshev`, whose parameter range has the length `ND` of the data and not `NP`: with two or more parameters and
`ND ≠ NP` the bounds of the parameters cannot be set; with one parameter and no data they are silently not set; and with one parameter, two or
more data and enough slack variables the bound is also written to slack variables. -/
theorem ms_param_box (d : Dims) (ND : ℕ) (A : Approx K) (sc : Scale K) (lb ub : ℕ → Option K) (o : Obj K) :
    (2 ≤ d.NP → ND ≠ d.NP → setParamBox (ms d ND A) sc d.NP lb ub o = none) ∧
    (d.NP = 1 → ND = 0 → uEnd (ms d ND A) ≤ o.arg.nVar →
      ∃ o', setParamBox (ms d ND A) sc d.NP lb ub o = some o' ∧ o'.arg.lbx = o.arg.lbx ∧ o'.arg.ubx = o.arg.ubx) ∧
    (d.NP = 1 → 2 ≤ ND → uEnd (ms d ND A) + ND ≤ o.arg.nVar →
      ∃ o', setParamBox (ms d ND A) sc d.NP lb ub o = some o' ∧
        ∀ i < ND, o'.arg.lbx (uEnd (ms d ND A) + i) = (lb 0).map (sc.p 0 * ·) ∧ o'.arg.ubx (uEnd (ms d ND A) + i) = (ub 0).map (sc.p 0 * ·)) := by
  have hp : pEnd (ms d ND A) = uEnd (ms d ND A) + ND := by
    unfold pEnd
    show _ + (CasCheb.MS.pEnd d ND - CasCheb.MS.pStart d) = _
    unfold CasCheb.MS.pEnd; omega
  refine ⟨fun h1 h2 => ?_, fun h1 h2 h3 => ?_, fun h1 h2 h3 => ?_⟩
  · unfold setParamBox
    rw [if_neg (by simp)]
    have : assign o.arg.nVar o.arg.lbx (uEnd (ms d ND A)) (pEnd (ms d ND A)) d.NP (scaleB sc.p lb) = none := by
      unfold assign
      split
      · rfl
      · rw [if_neg (by rw [hp]; omega), if_neg (by omega)]
    rw [this]; rfl
  · unfold setParamBox
    rw [if_neg (by simp)]
    have : ∀ v w : ℕ → Option K, assign o.arg.nVar v (uEnd (ms d ND A)) (pEnd (ms d ND A)) d.NP w = some v := by
      intro v w
      unfold assign
      rw [hp, h2, if_neg (by rw [Nat.add_zero, ← h2]; omega), if_neg (by omega), if_pos h1]
      congr 1
      funext i
      rw [if_neg (by omega)]
    rw [this, this]
    exact ⟨_, rfl, rfl, rfl⟩
  · unfold setParamBox
    rw [if_neg (by simp)]
    have : ∀ v w : ℕ → Option K, assign o.arg.nVar v (uEnd (ms d ND A)) (pEnd (ms d ND A)) d.NP w
        = some fun i => if uEnd (ms d ND A) ≤ i ∧ i < pEnd (ms d ND A) then w 0 else v i := by
      intro v w
      unfold assign
      rw [if_neg (by rw [hp]; omega), if_neg (by rw [hp]; omega), if_pos h1]
    rw [this, this]
    exact ⟨_, rfl, fun i hi => ⟨if_pos (by rw [hp]; omega), if_pos (by rw [hp]; omega)⟩⟩

/-- **C135.** `get_slacks` returns the slack variables of `Chebyshev`; with `MSChebyshev` it starts `ND` variables after the controls instead
of `NP`. -/
theorem slacks_range (d : Dims) (ND : ℕ) (A : Approx K) (n nS : ℕ) (o : Obj K) :
    (n = uEnd (cheb d ND A) + d.NP → o.arg.nVar = n + nS → (getSlacks (cheb d ND A) o).1 = nS ∧ ∀ i < nS, (getSlacks (cheb d ND A) o).2 i = o.nlpX (n + i)) ∧
    (n = uEnd (ms d ND A) + d.NP → o.arg.nVar = n + nS → (getSlacks (ms d ND A) o).1 = d.NP + nS - ND ∧
      ∀ i, ND + i < d.NP + nS → (getSlacks (ms d ND A) o).2 i = o.nlpX (uEnd (ms d ND A) + ND + i)) := by
  have hp : pEnd (ms d ND A) = uEnd (ms d ND A) + ND := by
    unfold pEnd
    show _ + (CasCheb.MS.pEnd d ND - CasCheb.MS.pStart d) = _
    unfold CasCheb.MS.pEnd; omega
  have hq : pEnd (cheb d ND A) = uEnd (cheb d ND A) + d.NP := rfl
  unfold getSlacks CasCheb.slice
  constructor
  · intro h1 h2
    rw [hq, ← h1, h2]
    split
    · exact ⟨Nat.add_sub_cancel_left _ _, fun i _ => rfl⟩
    · exact ⟨by show 0 = nS; omega, fun i hi => by omega⟩
  · intro h1 h2
    rw [hp, h2, h1]
    split
    · exact ⟨by show _ - _ = _; omega, fun i _ => rfl⟩
    · exact ⟨by show 0 = _; omega, fun i hi => by omega⟩

end PolyMPC.GenOcp
