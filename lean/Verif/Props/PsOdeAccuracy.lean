import Verif.Lemmas.CollocHorizon
import Verif.Props.PsOdeIvp
import Mathlib.Analysis.SpecialFunctions.ExpDeriv
import Mathlib.Analysis.Complex.ExponentialBounds
import Mathlib.Analysis.Calculus.IteratedDeriv.Lemmas

/-!
# Accuracy of the collocation solutions, and their existence for nonlinear dynamics (C183, C184)

`PSODESolver` and the constraints of the tracking controller `nmpc`.
-/

set_option linter.unusedSectionVars false

namespace PolyMPC.Colloc
open Polynomial Set Spec CasCheb Ocp

variable {S N n : ℕ}

/-- Collocation solutions are close to the exact solution. The control signal `w s` on segment `s` agrees with the node controls at the collocation nodes. -/
theorem collocates_accurate (hS : 1 ≤ S) (hN : 1 ≤ N) {T : ℝ} (hT : 0 < T) {f : (ℕ → ℝ) → (ℕ → ℝ) → ℕ → ℝ} {Ω : Set (ℕ → ℝ)} {L M e0 : ℝ} (hL0 : 0 ≤ L) (hM0 : 0 ≤ M) (he0 : 0 ≤ e0)
    (hf : LipschitzIn n Ω f L) (hz : T / S * growth N * L ≤ 1 / 2) {x u : ℕ → ℕ → ℝ} (hx : Collocates S N n f T x u) {y : ℕ → ℝ → ℝ} {w : ℕ → ℝ → ℕ → ℝ}
    (hw : ∀ s < S, ∀ j < N, w s (segTime S N 0 T s j) = u (s * N + j)) (hm : ∀ k ≤ S * N, x k ∈ Ω) (hm' : ∀ t ∈ Icc 0 T, (fun j => y j t) ∈ Ω)
    (hy : ∀ s < S, SmoothSolution n N y (fun i t => f (fun j => y j t) (w s t) i) (segStart S 0 T s) (segStart S 0 T s + T / S) M) (h0 : ∀ i < n, |x (S * N) i - y i 0| ≤ e0) :
    ∀ s < S, ∀ l ≤ N, ∀ i < n, |x (s * N + l) i - y i (segTime S N 0 T s l)| ≤ errorBound N L M T (T / S) 0 e0 := by
  have hSr : (0 : ℝ) < S := by exact_mod_cast hS
  have := horizon (n := n) (t0 := 0) (tf := T) (x := x) (y := y) (r := fun s i t => f (fun j => y j t) (w s t) i) (ε := 0) hS hN hT hL0 le_rfl he0 hM0
    (by rw [sub_zero]; exact hz) (by rw [sub_zero]; exact hy) h0 (by
      intro s hs i hi
      obtain ⟨Q, q1, q2, q3⟩ := hx s hs i hi
      refine ⟨Q, q1, q2, fun j hj B hB => ?_⟩
      have hk : s * N + j ≤ S * N := by
        have : (s + 1) * N ≤ S * N := Nat.mul_le_mul_right _ hs
        rw [Nat.add_mul, Nat.one_mul] at this
        omega
      have ht : segTime S N 0 T s j ∈ Icc 0 T := by
        have h1 := seg_mem (N := N) hS hT s j
        rw [sub_zero] at h1
        have hs' : (s : ℝ) + 1 ≤ S := by exact_mod_cast hs
        have hst : segStart S 0 T s = T - (s + 1) * (T / S) := by unfold segStart; rw [sub_zero]
        rw [hst] at h1
        have hTS : S * (T / S) = T := by field_simp
        have hp : 0 < T / S := by positivity
        have hs0 : (0 : ℝ) ≤ s := Nat.cast_nonneg s
        constructor
        · nlinarith [h1.1]
        · nlinarith [h1.2]
      rw [q3 j hj, hw s hs j hj, add_zero]
      exact hf _ (hm _ hk) _ (hm' _ ht) _ B hB i hi)
  rw [sub_zero] at this
  exact this

/-- A solution that is smooth on the horizon is so on the segments. -/
theorem smooth_segments (hS : 1 ≤ S) {T : ℝ} (hT : 0 < T) {y r : ℕ → ℝ → ℝ} {M : ℝ} (h : SmoothSolution n N y r 0 T M) {s : ℕ} (hs : s < S) :
    SmoothSolution n N y r (segStart S 0 T s) (segStart S 0 T s + T / S) M := by
  have hSr : (0 : ℝ) < S := by exact_mod_cast hS
  have hs' : (s : ℝ) + 1 ≤ S := by exact_mod_cast hs
  have hTS : S * (T / S) = T := by field_simp
  have hp : 0 < T / S := by positivity
  have hst : segStart S 0 T s = T - (s + 1) * (T / S) := by unfold segStart; rw [sub_zero]
  have hs0 : (0 : ℝ) ≤ s := Nat.cast_nonneg s
  refine smooth_sub h ?_ (by linarith) ?_
  · rw [hst]; nlinarith
  · rw [hst]; nlinarith

end PolyMPC.Colloc

namespace PolyMPC.PsOde
open Ocp CasCheb GenOcp Spec Polynomial Nmpc Colloc Set

section
variable {d : Dims} {ode : Ode ℝ} {o : Props ℝ} {T : ℝ} (solver : Args ℝ → Nmpc.Res ℝ) {ob : Obj ℝ} {P : DM ℝ} {p : ℕ → ℝ}

theorem node_pair (hN : 1 ≤ d.N) {k : ℕ} (hk : k ≤ d.S * d.N) (hS : 1 ≤ d.S) : ∃ s < d.S, ∃ l ≤ d.N, k = s * d.N + l := by
  rcases Nat.eq_or_lt_of_le hk with h | h
  · refine ⟨d.S - 1, by omega, d.N, le_rfl, ?_⟩
    rw [h]
    obtain ⟨m, hm⟩ : ∃ m, d.S = m + 1 := ⟨d.S - 1, by omega⟩
    rw [hm, Nat.add_sub_cancel]
    ring
  · exact ⟨k / d.N, (Nat.div_lt_iff_lt_mul (by omega)).2 h, k % d.N, (Nat.mod_lt _ (by omega)).le, (Nat.div_add_mod' k d.N).symm⟩

theorem end_time (hN : 1 ≤ d.N) : segTime d.S d.N 0 T 0 0 = T := by
  rw [segTime_eq, (points_ends hN).1]; push_cast; ring

/-- **C183.** Let the right-hand side be Lipschitz continuous on `Ω`, let `y` be the solution for the constant control `u`, with values in `Ω` and `N + 1` times continuously differentiable, and let the segments be short.
If the solver returns a feasible point with states in `Ω`, then what `solve` returns, at the end of the horizon and with `full` at all nodes, is the exact solution up to an error of order `N` in the length of the segments. -/
theorem solve_accurate (hS : 1 ≤ d.S) (hN : 1 ≤ d.N) (hT : 0 < T) (ho : o.on = false) (hob : ob.scale = false) (x0 u : ℕ → ℝ) (hp : argCol d.NP P = some p)
    {Ω : Set (ℕ → ℝ)} {L M : ℝ} (hL0 : 0 ≤ L) (hM0 : 0 ≤ M) (hf : LipschitzIn d.NX Ω (fun x u => ode.f x u (part d.NP p 0)) L) (hz : T / d.S * growth d.N * L ≤ 1 / 2)
    {y : ℕ → ℝ → ℝ} (hy : SmoothSolution d.NX d.N y (fun i t => ode.f (fun j => y j t) (part d.NU u 0) (part d.NP p 0) i) 0 T M) (h0 : ∀ i < d.NX, y i 0 = x0 i)
    (hm' : ∀ t ∈ Icc 0 T, (fun j => y j t) ∈ Ω) :
    ∃ a z e, solve d solver ob (DM.col d.NX x0) (DM.col d.NU u) P true = some ({ ob with arg := a }, z) ∧
      solve d solver ob (DM.col d.NX x0) (DM.col d.NU u) P false = some ({ ob with arg := a }, e) ∧
      (Feasible d ode o T a (solver a).x → (∀ k ≤ d.S * d.N, nodes d.NX z k ∈ Ω) →
        (∀ i < d.NX, |e.a i 0 - y i T| ≤ errorBound d.N L M T (T / d.S) 0 0) ∧
        ∀ s < d.S, ∀ l ≤ d.N, ∀ i < d.NX, |z.a ((s * d.N + l) * d.NX + i) 0 - y i (segTime d.S d.N 0 T s l)| ≤ errorBound d.N L M T (T / d.S) 0 0) := by
  obtain ⟨a, h1, h2⟩ := solve_meaning (ode := ode) (o := o) (T := T) solver hS hN hT ho hob x0 u hp
  obtain ⟨z, hz1⟩ := h1 true
  obtain ⟨e, he1⟩ := h1 false
  refine ⟨a, z, e, hz1, he1, fun hfe hm => ?_⟩
  obtain ⟨z', e', hz', he', -, -, -, -, hc, hi0, hend⟩ := h2 hfe
  rw [hz1] at hz'
  rw [he1] at he'
  obtain rfl : z = z' := (Prod.mk.inj (Option.some.inj hz')).2
  obtain rfl : e = e' := (Prod.mk.inj (Option.some.inj he')).2
  have key := collocates_accurate hS hN hT hL0 hM0 le_rfl hf hz hc (y := y) (w := fun _ _ => part d.NU u 0) (fun _ _ _ _ => rfl) hm hm' (fun s hs => smooth_segments hS hT hy hs)
    (fun i hi => by rw [hi0 i hi, h0 i hi, sub_self, abs_zero])
  constructor
  · intro i hi
    have := key 0 (by omega) 0 (Nat.zero_le _) i hi
    rw [end_time hN, Nat.zero_mul, Nat.zero_add, ← hend i hi] at this
    exact this
  · intro s hs l hl i hi
    have := key s hs l hl i hi
    unfold nodes part at this
    rw [if_pos hi] at this
    exact this

/-- **C183.** `solve_trajectory` likewise, for every control signal, smooth on each segment, that has the given values at the collocation nodes (all nodes but the earliest of each segment). -/
theorem trajectory_accurate (hS : 1 ≤ d.S) (hN : 1 ≤ d.N) (hT : 0 < T) (ho : o.on = false) (hob : ob.scale = false) (x0 u : ℕ → ℝ) (hp : argCol d.NP P = some p)
    {Ω : Set (ℕ → ℝ)} {L M : ℝ} (hL0 : 0 ≤ L) (hM0 : 0 ≤ M) (hf : LipschitzIn d.NX Ω (fun x u => ode.f x u (part d.NP p 0)) L) (hz : T / d.S * growth d.N * L ≤ 1 / 2)
    {w : ℕ → ℝ → ℕ → ℝ} (hw : ∀ s < d.S, ∀ j < d.N, w s (segTime d.S d.N 0 T s j) = part d.NU u ((s * d.N + j) * d.NU)) {y : ℕ → ℝ → ℝ}
    (hy : ∀ s < d.S, SmoothSolution d.NX d.N y (fun i t => ode.f (fun j => y j t) (w s t) (part d.NP p 0) i) (segTime d.S d.N 0 T s d.N) (segTime d.S d.N 0 T s 0) M)
    (h0 : ∀ i < d.NX, y i 0 = x0 i) (hm' : ∀ t ∈ Icc 0 T, (fun j => y j t) ∈ Ω) :
    ∃ a z e, solveTrajectory d solver ob (DM.col d.NX x0) (DM.col ((d.S * d.N + 1) * d.NU) u) P true = some ({ ob with arg := a }, z) ∧
      solveTrajectory d solver ob (DM.col d.NX x0) (DM.col ((d.S * d.N + 1) * d.NU) u) P false = some ({ ob with arg := a }, e) ∧
      (Feasible d ode o T a (solver a).x → (∀ k ≤ d.S * d.N, nodes d.NX z.x k ∈ Ω) →
        (∀ i < d.NX, |e.x.a i 0 - y i T| ≤ errorBound d.N L M T (T / d.S) 0 0) ∧
        ∀ s < d.S, ∀ l ≤ d.N, ∀ i < d.NX, |z.x.a ((s * d.N + l) * d.NX + i) 0 - y i (segTime d.S d.N 0 T s l)| ≤ errorBound d.N L M T (T / d.S) 0 0) := by
  obtain ⟨a, h1, h2⟩ := trajectory_meaning (ode := ode) (o := o) (T := T) solver hS hN hT ho hob x0 u hp
  obtain ⟨z, hz1⟩ := h1 true
  obtain ⟨e, he1⟩ := h1 false
  refine ⟨a, z, e, hz1, he1, fun hfe hm => ?_⟩
  obtain ⟨z', e', hz', he', -, -, -, -, hc, hi0, hend⟩ := h2 hfe
  rw [hz1] at hz'
  rw [he1] at he'
  obtain rfl : z = z' := (Prod.mk.inj (Option.some.inj hz')).2
  obtain rfl : e = e' := (Prod.mk.inj (Option.some.inj he')).2
  have key := collocates_accurate hS hN hT hL0 hM0 le_rfl hf hz hc (y := y) (w := w) hw hm hm' (fun s hs => by
      have := hy s hs
      rw [segStart_eq hN] at this
      have e : segTime d.S d.N 0 T s 0 = segStart d.S 0 T s + T / d.S := by
        rw [segTime_eq, (points_ends hN).1]; unfold segStart; ring
      rw [e] at this
      exact this)
    (fun i hi => by rw [hi0 i hi, h0 i hi, sub_self, abs_zero])
  constructor
  · intro i hi
    have := key 0 (by omega) 0 (Nat.zero_le _) i hi
    rw [end_time hN, Nat.zero_mul, Nat.zero_add, ← hend i hi] at this
    exact this
  · intro s hs l hl i hi
    have := key s hs l hl i hi
    unfold nodes part at this
    rw [if_pos hi] at this
    exact this

theorem collocates_part {f : (ℕ → ℝ) → (ℕ → ℝ) → ℕ → ℝ} {L : ℝ} (hf : LipschitzIn d.NX univ f L) {x u x' u' : ℕ → ℕ → ℝ} (hx : ∀ k ≤ d.S * d.N, ∀ i < d.NX, x' k i = x k i)
    (hu : ∀ k ≤ d.S * d.N, u' k = u k) (h : Collocates d.S d.N d.NX f T x u) : Collocates d.S d.N d.NX f T x' u' := by
  intro s hs i hi
  have hk : ∀ l ≤ d.N, s * d.N + l ≤ d.S * d.N := by
    intro l hl
    have : (s + 1) * d.N ≤ d.S * d.N := Nat.mul_le_mul_right _ hs
    rw [Nat.add_mul, Nat.one_mul] at this
    omega
  obtain ⟨Q, q1, q2, q3⟩ := h s hs i hi
  refine ⟨Q, q1, fun l hl => by rw [q2 l hl, hx _ (hk l hl) i hi], fun j hj => ?_⟩
  rw [q3 j hj, hu _ (hk j hj.le)]
  have := hf (x (s * d.N + j)) (mem_univ _) (x' (s * d.N + j)) (mem_univ _) (u (s * d.N + j)) 0 (fun i' hi' => by rw [hx _ (hk j hj.le) i' hi', sub_self, abs_zero]) i hi
  rw [mul_zero] at this
  exact sub_eq_zero.1 (abs_eq_zero.1 (le_antisymm this (abs_nonneg _)))

/-- **C184.** For dynamics that are Lipschitz continuous in the state (with a constant that holds for the parameters and all controls) and segments that are short enough for that constant, the program of `PSODESolver` with given
initial state and controls has exactly one solution. -/
theorem ivp_unique_lipschitz (hS : 1 ≤ d.S) (hN : 1 ≤ d.N) (hT : 0 < T) (ho : o.on = false) (hb : buildOk d ode o = true) {L : ℝ} (hL0 : 0 ≤ L)
    (hf : LipschitzIn d.NX univ (fun x u => ode.f x u (part d.NP p 0)) L) (hz : T / d.S * growth d.N * L < 1) :
    (∀ x0 u : ℕ → ℝ, ∃ v q, nlp d (scheme d.N) ode o T p v = some q ∧ (∀ r < q.n, q.g r = 0) ∧ (∀ i < d.NX, xAt d v (d.S * d.N) i = x0 i) ∧ ∀ c < d.VARU, v (d.VARX + c) = u c) ∧
    ∀ v v' q q', nlp d (scheme d.N) ode o T p v = some q → nlp d (scheme d.N) ode o T p v' = some q' →
      (∀ r < q.n, q.g r = 0) → (∀ r < q'.n, q'.g r = 0) → (∀ i < d.NX, xAt d v (d.S * d.N) i = xAt d v' (d.S * d.N) i) →
      (∀ k < d.NN, uAt d v k = uAt d v' k) → ∀ r < d.VARX, v r = v' r := by
  constructor
  · intro x0 u
    obtain ⟨x, hx, hx0⟩ := collocates_exists hS hN hT hL0 hf hz x0 fun k => part d.NU u (k * d.NU)
    let v := pack d x fun k => part d.NU u (k * d.NU)
    have hpart : ∀ k, part d.NU (part d.NU u (k * d.NU)) 0 = part d.NU u (k * d.NU) := fun k => by
      funext i; unfold part
      by_cases hi : i < d.NU
      · simp [hi]
      · rw [if_neg hi, if_neg hi]
    obtain ⟨q, hq⟩ : ∃ q, nlp d (scheme d.N) ode o T p v = some q := by unfold nlp; rw [if_pos hb]; exact ⟨_, rfl⟩
    have hxa : ∀ k ≤ d.S * d.N, ∀ i < d.NX, xAt d v k i = x k i := fun k hk i hi => by
      rw [xAt_pack _ _ (by unfold Dims.NN; omega)]
      unfold part; rw [if_pos hi, Nat.zero_add]
    refine ⟨v, q, hq, ?_, fun i hi => ?_, fun c hc => ?_⟩
    · rw [rows_off hS hN hT ho hq]
      exact collocates_part hf hxa (fun k _ => by rw [uAt_pack, hpart]) hx
    · rw [hxa _ le_rfl i hi, hx0 i hi]
    · show pack d x _ (d.VARX + c) = u c
      unfold pack
      rw [if_neg (by omega), Nat.add_sub_cancel_left]
      have hU : 0 < d.NU := by
        rcases Nat.eq_zero_or_pos d.NU with h | h
        · rw [← varu_comm, h, Nat.mul_zero] at hc; omega
        · exact h
      show part d.NU u (c / d.NU * d.NU) (c % d.NU) = u c
      unfold part
      rw [if_pos (Nat.mod_lt _ hU), Nat.div_add_mod']
  · intro v v' q q' hq hq' hr hr' hx0 hu r hr0
    rw [rows_off hS hN hT ho hq] at hr
    rw [rows_off hS hN hT ho hq'] at hr'
    have hX : 0 < d.NX := by
      rcases Nat.eq_zero_or_pos d.NX with h | h
      · rw [← varx_comm, h, Nat.mul_zero] at hr0; omega
      · exact h
    have hk : r / d.NX < d.NN := (Nat.div_lt_iff_lt_mul hX).2 (by rw [varx_comm]; exact hr0)
    have := collocates_unique hS hN hT hL0 hf hz hr (collocates_congr hr' fun k hk => (hu k (by unfold Dims.NN; omega)).symm) (fun _ _ => mem_univ _) (fun _ _ => mem_univ _) hx0
      (r / d.NX) (by unfold Dims.NN at hk; omega) (r % d.NX) (Nat.mod_lt _ hX)
    unfold xAt part at this
    rw [if_pos (Nat.mod_lt _ hX), if_pos (Nat.mod_lt _ hX), Nat.div_add_mod'] at this
    exact this

end

/-! ### Instances -/

theorem growth_two : growth 2 = 4 := by
  unfold growth
  rw [Fin.sum_univ_two]
  have e0 : (Finset.univ.erase (0 : Fin 2)) = {1} := by decide
  have e1 : (Finset.univ.erase (1 : Fin 2)) = {0} := by decide
  rw [e0, e1, Finset.prod_singleton, Finset.prod_singleton]
  norm_num

theorem decay_lipschitz : LipschitzIn 1 univ (fun x _ i => -x i) 1 := by
  intro x _ x' _ _ B h i hi
  have := h i hi
  show |(-x i) - (-x' i)| ≤ 1 * B
  rw [one_mul, show -x i - -x' i = -(x i - x' i) by ring, abs_neg]
  exact this

theorem decay_smooth {T : ℝ} (hT : 0 < T) : SmoothSolution 1 2 (fun _ t => Real.exp (-1 * t)) (fun _ t => -Real.exp (-1 * t)) 0 T 1 := by
  have hc : ContDiff ℝ 2 fun t : ℝ => Real.exp (-1 * t) := by fun_prop
  refine ⟨fun _ _ t _ => ?_, fun _ _ => hc.neg.contDiffOn, fun _ _ t ht => ?_⟩
  · have := ((hasDerivAt_id t).const_mul (-1 : ℝ)).exp
    simp only [id] at this
    exact (this.congr_deriv (by ring)).hasDerivWithinAt
  · rw [iteratedDerivWithin_eq_iteratedDeriv (uniqueDiffOn_Icc hT) hc.neg.contDiffAt ht]
    have : iteratedDeriv 2 (fun t : ℝ => -Real.exp (-1 * t)) t = -(iteratedDeriv 2 (fun t : ℝ => Real.exp (-1 * t)) t) := by
      rw [iteratedDeriv_fun_neg]
    rw [this, iteratedDeriv_exp_const_mul]
    have h1 : Real.exp (-1 * t) ≤ 1 := Real.exp_le_one_iff.2 (by linarith [ht.1])
    rw [abs_neg, abs_of_pos (by positivity)]
    norm_num
    exact ht.1

/-- **C183**, instance: `x' = -x` on `[0, 1/8]` with `S` segments of degree 2. What `solve` returns is within `3 / (100 S²)` of `exp(-1/8)`, for every solver that returns a feasible point. -/
example (S : ℕ) (hS : 1 ≤ S) (solver : Args ℝ → Nmpc.Res ℝ) (ob : Obj ℝ) (hob : ob.scale = false) (P : DM ℝ) (p : ℕ → ℝ) (hp : argCol 0 P = some p) (u : ℕ → ℝ) :
    ∃ a e, solve ⟨1, 1, 0, 0, S, 2⟩ solver ob (DM.col 1 fun _ => 1) (DM.col 1 u) P false = some ({ ob with arg := a }, e) ∧
      (Feasible ⟨1, 1, 0, 0, S, 2⟩ ⟨2, fun x _ _ i => -x i⟩ {} (1 / 8) a (solver a).x → |e.a 0 0 - Real.exp (-1 * (1 / 8))| ≤ 3 / 100 / S ^ 2) := by
  have hS0 : (0 : ℝ) < S := by exact_mod_cast hS
  have hS1 : (1 : ℝ) ≤ S := by exact_mod_cast hS
  obtain ⟨a, z, e, -, he, h⟩ := solve_accurate (d := ⟨1, 1, 0, 0, S, 2⟩) (ode := ⟨2, fun x _ _ i => -x i⟩) (o := {}) (T := 1 / 8) solver hS (by norm_num) (by norm_num) rfl hob
    (fun _ => 1) u hp (Ω := univ) (L := 1) (M := 1) zero_le_one zero_le_one decay_lipschitz
    (by rw [growth_two]; show 1 / 8 / (S : ℝ) * 4 * 1 ≤ 1 / 2; rw [div_div, div_mul_eq_mul_div, mul_one, div_le_div_iff₀ (by positivity) (by norm_num)]; linarith)
    (decay_smooth (by norm_num)) (fun _ _ => by simp) (fun _ _ => mem_univ _)
  refine ⟨a, e, he, fun hf => ((h hf fun _ _ => mem_univ _).1 0 (by norm_num)).trans ?_⟩
  unfold errorBound
  rw [growth_two]
  have e1 : Real.exp (2 * 4 * 1 * (1 / 8)) ≤ 3 := by
    rw [show (2 * 4 * 1 * (1 / 8) : ℝ) = 1 by norm_num]
    linarith [Real.exp_one_lt_d9]
  show Real.exp (2 * 4 * 1 * (1 / 8)) * (0 + 1 / 8 * (4 * 0 + (4 + 1) * (1 * (1 / 8 / (S : ℝ)) ^ 2 / ((2 - 1).factorial : ℝ)))) ≤ _
  have e2 : (0 + 1 / 8 * (4 * 0 + (4 + 1) * (1 * (1 / 8 / (S : ℝ)) ^ 2 / ((2 - 1).factorial : ℝ)))) = 5 / 512 / (S : ℝ) ^ 2 := by
    norm_num
    field_simp
    norm_num
  rw [e2]
  calc Real.exp (2 * 4 * 1 * (1 / 8)) * (5 / 512 / (S : ℝ) ^ 2) ≤ 3 * (5 / 512 / (S : ℝ) ^ 2) := by gcongr
    _ ≤ 3 / 100 / (S : ℝ) ^ 2 := by rw [← mul_div_assoc]; gcongr; norm_num

/-- **C184**, instance: the pendulum `x'' = -sin x + u`, a nonlinear system. With `4 S` segments of degree 2 on a horizon shorter than `S` the program always has exactly one solution; in particular one that starts at given angle and speed. -/
example (S : ℕ) (hS : 1 ≤ S) (T : ℝ) (hT : 0 < T) (hTS : T < S) (x0 u : ℕ → ℝ) :
    ∃ v q, nlp ⟨2, 1, 0, 0, 4 * S, 2⟩ (scheme 2) ⟨2, fun x u _ i => if i = 0 then x 1 else -Real.sin (x 0) + u 0⟩ {} T (fun _ => 0) v = some q ∧ (∀ r < q.n, q.g r = 0) ∧
      (∀ i < 2, xAt ⟨2, 1, 0, 0, 4 * S, 2⟩ v (4 * S * 2) i = x0 i) ∧ ∀ c < (⟨2, 1, 0, 0, 4 * S, 2⟩ : Dims).VARU, v ((⟨2, 1, 0, 0, 4 * S, 2⟩ : Dims).VARX + c) = u c := by
  have hS0 : (0 : ℝ) < S := by exact_mod_cast hS
  refine (ivp_unique_lipschitz (d := ⟨2, 1, 0, 0, 4 * S, 2⟩) (o := {}) (T := T) (p := fun _ => 0) (by show 1 ≤ 4 * S; omega) (by norm_num) hT rfl (by rfl) (L := 1) zero_le_one ?_ ?_).1 x0 u
  · intro x _ x' _ u B h i hi
    dsimp only
    rw [one_mul]
    have hi : i < 2 := hi
    rcases Nat.lt_or_ge i 1 with h1 | h1
    · rw [if_pos (by omega), if_pos (by omega)]
      exact h 1 (by norm_num)
    · rw [if_neg (by omega), if_neg (by omega), show -Real.sin (x 0) + u 0 - (-Real.sin (x' 0) + u 0) = -(Real.sin (x 0) - Real.sin (x' 0)) by ring, abs_neg]
      refine le_trans ?_ (h 0 (by norm_num))
      have := Real.lipschitzWith_sin.dist_le_mul (x 0) (x' 0)
      rw [Real.dist_eq, Real.dist_eq] at this
      simpa using this
  · show T / ((4 * S : ℕ) : ℝ) * growth 2 * 1 < 1
    rw [growth_two]
    push_cast
    rw [mul_one, div_mul_eq_mul_div, div_lt_one (by positivity)]
    linarith

end PolyMPC.PsOde
