import Verif.Lemmas.OcpCalc
import Verif.Lemmas.OcpHess
import Verif.Props.Chebyshev
import Verif.Props.AutoDiff

/-!
# Transcription of the optimal control problem, dense (C37, C38, C39, C42, C43, C45, C77, C78)
-/

namespace PolyMPC.Ocp
open AD Spec Polynomial

set_option linter.unusedSectionVars false
set_option linter.unusedVariables false

/-! ### The Chebyshev data -/

theorem cheb_node (N : ℕ) (i : Fin (N + 1)) : (chebApprox N).nodes i = Cheb.nodes N i := by
  show dite _ _ _ = _; rw [dif_pos i.2]
theorem cheb_D (N : ℕ) (i j : Fin (N + 1)) : (chebApprox N).D i j = Cheb.diffMatrix N i j := by
  show dite _ _ _ = _; rw [dif_pos ⟨i.2, j.2⟩]
theorem cheb_w (N : ℕ) (i : Fin (N + 1)) : (chebApprox N).w i = Cheb.intWeights N i := by
  show dite _ _ _ = _; rw [dif_pos i.2]

/-- What the time grid needs of the nodes. -/
structure GoodNodes (N : ℕ) (A : Approx ℝ) : Prop where
  first : A.nodes 0 = 1
  last : A.nodes N = -1
  anti : ∀ j < N, A.nodes (j + 1) < A.nodes j

theorem cheb_good {N : ℕ} (hN : 1 ≤ N) : GoodNodes N (chebApprox N) := by
  have e := Cheb.nodes_ends hN
  refine ⟨?_, ?_, fun j hj => ?_⟩
  · have := cheb_node N 0; rw [e.1] at this; exact this
  · have := cheb_node N (Fin.last N); rw [e.2] at this; exact this
  · have h1 := cheb_node N ⟨j, by omega⟩
    have h2 := cheb_node N ⟨j + 1, by omega⟩
    simp only at h1 h2
    rw [h1, h2]
    exact Cheb.nodes_strictAnti (by show j < j + 1; omega)

theorem cheb_skew (d : Dims) (hN : 1 ≤ d.N) : SkewEnds d (chebApprox d.N) := by
  intro l hl
  have h := Cheb.diffMatrix_rev hN 0 ⟨l, by omega⟩
  have h1 := cheb_D d.N (Fin.rev 0) (Fin.rev ⟨l, by omega⟩)
  have h2 := cheb_D d.N 0 ⟨l, by omega⟩
  rw [← h1, ← h2] at h
  have e1 : (Fin.rev (0 : Fin (d.N + 1))).val = d.N := by simp
  have e2 : (Fin.rev (⟨l, by omega⟩ : Fin (d.N + 1))).val = d.N - l := by rw [Fin.val_rev]; show d.N + 1 - (l + 1) = _; omega
  rw [e1, e2] at h
  exact h

/-! ### Layout of the variables -/

/-- **C38.** Layout of the optimisation variables that all callbacks see: states of all nodes, node after node; then the controls of all
nodes; then the parameters once. -/
theorem node_layout (d : Dims) (var : ℕ → ℝ) (k : ℕ) (i : Fin d.M) :
    (i.val < d.NX → node d var k i = var (d.NX * k + i)) ∧
    (∀ j < d.NU, i.val = d.NX + j → node d var k i = var (d.NX * (d.S * d.N + 1) + (d.NU * k + j))) ∧
    (∀ j < d.NP, i.val = d.NX + d.NU + j → node d var k i = var ((d.NX + d.NU) * (d.S * d.N + 1) + j)) := by
  unfold node
  refine ⟨fun h => ?_, fun j hj h => ?_, fun j hj h => ?_⟩
  · rw [if_pos h, Nat.mul_comm]
  · rw [if_neg (by omega), if_pos (by omega)]
    congr 1
    have : d.VARX = d.NX * (d.S * d.N + 1) := rfl
    rw [this, Nat.mul_comm k]; omega
  · rw [if_neg (by omega), if_neg (by omega)]
    congr 1
    have h1 : d.VARX = d.NX * (d.S * d.N + 1) := rfl
    have h2 : d.VARU = d.NU * (d.S * d.N + 1) := rfl
    rw [h1, h2, Nat.add_mul]; omega

/-! ### C37: time grid -/

/-- **C37.** Time of node `j` of segment `s`, counted from the end of the horizon: the affine image of the reference node. -/
theorem time_grid (d : Dims) (A : Approx ℝ) (hA : GoodNodes d.N A) (o : Obj d ℝ) (t0 tf : ℝ) {s j : ℕ} (hs : s < d.S) (hj : j ≤ d.N) :
    (setTimeLimits d A o t0 tf).time (s * d.N + j)
      = (tf - s * ((tf - t0) / d.S)) - (1 - A.nodes j) * ((tf - t0) / d.S / 2) := by
  rw [time_closed d A o t0 tf hA.first hA.last (by norm_num) hs hj]
  have hS : (d.S : ℝ) ≠ 0 := by exact_mod_cast (by omega : d.S ≠ 0)
  rw [show d.S - 1 - s = d.S - (1 + s) by omega, Nat.cast_sub (by omega)]
  push_cast
  field_simp
  ring

theorem one_le_N {N : ℕ} {A : Approx ℝ} (hA : GoodNodes N A) : 1 ≤ N := by
  by_contra h
  have : N = 0 := by omega
  subst this
  have := hA.first.symm.trans hA.last
  norm_num at this

/-- **C37.** The grid starts at the end time, ends at the start time, and the junction after `s` segments is at `tf - s (tf-t0)/S`. -/
theorem time_junctions (d : Dims) (A : Approx ℝ) (hA : GoodNodes d.N A) (hS : 1 ≤ d.S) (o : Obj d ℝ) (t0 tf : ℝ) :
    (setTimeLimits d A o t0 tf).time 0 = tf ∧ (setTimeLimits d A o t0 tf).time (d.NN - 1) = t0 ∧
    ∀ s ≤ d.S, (setTimeLimits d A o t0 tf).time (s * d.N) = t0 + (d.S - s) * ((tf - t0) / d.S) := by
  have hS0 : (d.S : ℝ) ≠ 0 := by exact_mod_cast (by omega : d.S ≠ 0)
  have key : ∀ s ≤ d.S, (setTimeLimits d A o t0 tf).time (s * d.N) = t0 + (d.S - s) * ((tf - t0) / d.S) := by
    intro s hs
    rcases Nat.lt_or_ge s d.S with h | h
    · have := time_grid d A hA o t0 tf h (Nat.zero_le _)
      rw [hA.first, Nat.add_zero] at this
      rw [this]; field_simp; ring
    · have e : s = (d.S - 1) + 1 := by omega
      have := time_grid d A hA o t0 tf (show d.S - 1 < d.S by omega) (le_refl d.N)
      rw [hA.last] at this
      have e2 : s * d.N = (d.S - 1) * d.N + d.N := by rw [e, Nat.add_mul, Nat.one_mul]
      rw [e2, this, show s = d.S by omega, Nat.cast_sub hS]; push_cast; field_simp; ring
  refine ⟨?_, ?_, key⟩
  · have := key 0 (Nat.zero_le _)
    rw [Nat.zero_mul] at this
    rw [this]; push_cast; field_simp; ring
  · have := key d.S le_rfl
    rw [show d.NN - 1 = d.S * d.N by unfold Dims.NN; omega, this]; ring

/-- **C37.** For `t0 < tf` the node times strictly decrease. -/
theorem time_strictAnti (d : Dims) (A : Approx ℝ) (hA : GoodNodes d.N A) (o : Obj d ℝ) {t0 tf : ℝ} (h : t0 < tf) {k k' : ℕ} (hk : k < k')
    (hk' : k' < d.NN) : (setTimeLimits d A o t0 tf).time k' < (setTimeLimits d A o t0 tf).time k := by
  have hN := one_le_N hA
  have step : ∀ k, k + 1 < d.NN → (setTimeLimits d A o t0 tf).time (k + 1) < (setTimeLimits d A o t0 tf).time k := by
    intro k hk
    have hk0 : k < d.S * d.N := by unfold Dims.NN at hk; omega
    have hs : k / d.N < d.S := Nat.div_lt_of_lt_mul (by rw [Nat.mul_comm]; exact hk0)
    have hj : k % d.N < d.N := Nat.mod_lt _ hN
    have ek : k = k / d.N * d.N + k % d.N := by rw [Nat.mul_comm]; exact (Nat.div_add_mod k d.N).symm
    have h1 := time_grid d A hA o t0 tf hs hj.le
    have h2 := time_grid d A hA o t0 tf hs (show k % d.N + 1 ≤ d.N by omega)
    rw [← ek] at h1
    rw [← Nat.add_assoc, ← ek] at h2
    rw [h1, h2]
    have hS : (0 : ℝ) < d.S := by exact_mod_cast Nat.lt_of_le_of_lt (Nat.zero_le _) hs
    have hl : 0 < (tf - t0) / d.S / 2 := by have := sub_pos.2 h; positivity
    have ha := hA.anti (k % d.N) hj
    nlinarith
  obtain ⟨n, rfl⟩ : ∃ n, k' = k + 1 + n := ⟨k' - (k + 1), by omega⟩
  induction n with
  | zero => exact step k hk'
  | succ n ih => exact (step (k + 1 + n) hk').trans (ih (by omega) (by omega))

/-- **C37.** The node times depend only on the last call: not on the object it is applied to. -/
theorem time_history (d : Dims) (A : Approx ℝ) (hA : GoodNodes d.N A) (hS : 1 ≤ d.S) (o o' : Obj d ℝ) (t0 tf : ℝ) :
    (setTimeLimits d A o t0 tf).tStart = t0 ∧ (setTimeLimits d A o t0 tf).tStop = tf ∧
    ∀ k < d.NN, (setTimeLimits d A o t0 tf).time k = (setTimeLimits d A o' t0 tf).time k := by
  refine ⟨rfl, rfl, fun k hk => ?_⟩
  obtain ⟨s, j, hs, hj, -, rfl⟩ := node_split d hS (one_le_N hA) hk
  rw [time_grid d A hA o t0 tf hs hj, time_grid d A hA o' t0 tf hs hj]

/-! ### C38: collocation residual -/

/-- **C38.** Equality constraint `i` of node `j` of segment `s`: derivative of the interpolant through the nodes of that segment
minus the scaled dynamics. A junction node is differentiated with the first row of the later (in the ordering of nodes) segment. -/
theorem residual (d : Dims) (A : Approx ℝ) (cb : Cbs d ℝ) (o : Obj d ℝ) (junk : ℕ → ℕ → ℝ) (var c0 : ℕ → ℝ)
    (hw : ∀ z t old old', ∀ i < d.NX, cb.dyn z t old i = cb.dyn z t old' i) {s j i : ℕ} (hs : s < d.S) (hj : j ≤ d.N)
    (hjs : j < d.N ∨ s + 1 = d.S) (hi : i < d.NX) :
    constraints d A cb o junk var c0 ((s * d.N + j) * d.NX + i)
      = ∑ l ∈ Finset.range (d.N + 1), A.D j l * var ((s * d.N + l) * d.NX + i)
        - (o.tStop - o.tStart) / (2 * d.S) * cb.dyn (node d var (s * d.N + j)) (o.time (s * d.N + j)) (fun _ => 0) i := by
  have hk := node_lt d hs hj
  rw [constraints_eq_part d A cb o junk var c0 (xIdx_lt d hk hi), equalities_closed d A cb o junk var c0 hw hk hi,
    diffX_closed d A var junk hs hj hjs hi]
  unfold tScale
  push_cast
  rfl

/-- The affine map from the reference interval to segment `s`. -/
theorem cheb_residual_poly (d : Dims) (cb : Cbs d ℝ) (o : Obj d ℝ) (junk : ℕ → ℕ → ℝ) (var c0 : ℕ → ℝ) (hN : 1 ≤ d.N)
    (hw : ∀ z t old old', ∀ i < d.NX, cb.dyn z t old i = cb.dyn z t old' i) (t0 tf : ℝ) {s i : ℕ} (hs : s < d.S) (hi : i < d.NX)
    (Q : ℝ[X]) (hQ : Q.natDegree ≤ d.N) :
    let o' := setTimeLimits d (chebApprox d.N) o t0 tf
    (∀ l ≤ d.N, Q.eval (o'.time (s * d.N + l)) = var ((s * d.N + l) * d.NX + i)) →
    ∀ j ≤ d.N, (j < d.N ∨ s + 1 = d.S) →
    constraints d (chebApprox d.N) cb o' junk var c0 ((s * d.N + j) * d.NX + i)
      = (tf - t0) / (2 * d.S) * (Q.derivative.eval (o'.time (s * d.N + j))
        - cb.dyn (node d var (s * d.N + j)) (o'.time (s * d.N + j)) (fun _ => 0) i) := by
  intro o' hv j hj hjs
  rw [residual d _ cb o' junk var c0 hw hs hj hjs hi]
  set a : ℝ := (tf - t0) / d.S / 2 with ha
  set b : ℝ := tf - s * ((tf - t0) / d.S) - (tf - t0) / d.S / 2 with hb
  have ht : ∀ l ≤ d.N, o'.time (s * d.N + l) = a * (chebApprox d.N).nodes l + b := by
    intro l hl
    show (setTimeLimits d (chebApprox d.N) o t0 tf).time _ = _
    rw [time_grid d _ (cheb_good hN) o t0 tf hs hl]; ring
  let P : ℝ[X] := Q.comp (C a * X + C b)
  have hP : P.natDegree ≤ d.N := by
    refine natDegree_comp_le.trans ?_
    have : (C a * X + C b : ℝ[X]).natDegree ≤ 1 := natDegree_linear_le
    calc Q.natDegree * _ ≤ d.N * 1 := Nat.mul_le_mul hQ this
      _ = d.N := Nat.mul_one _
  have hx := Cheb.diffMatrix_exact hN hP ⟨j, by omega⟩
  have hsum : ∑ l ∈ Finset.range (d.N + 1), (chebApprox d.N).D j l * var ((s * d.N + l) * d.NX + i)
      = ∑ l : Fin (d.N + 1), Cheb.diffMatrix d.N ⟨j, by omega⟩ l * P.eval (Cheb.nodes d.N l) := by
    rw [Finset.sum_range]
    refine Finset.sum_congr rfl fun l _ => ?_
    have h1 := cheb_D d.N ⟨j, by omega⟩ l
    simp only at h1
    rw [h1, ← hv l.val (by omega), ht l.val (by omega), cheb_node]
    simp [P, eval_comp]
  rw [hsum, hx]
  have hd : (derivative P).eval (Cheb.nodes d.N ⟨j, by omega⟩) = a * Q.derivative.eval (o'.time (s * d.N + j)) := by
    have h1 := cheb_node d.N ⟨j, by omega⟩
    simp only at h1
    rw [ht j hj, h1]
    simp only [P, derivative_comp, eval_mul, eval_comp]
    simp
  rw [hd]
  have hS : (d.S : ℝ) ≠ 0 := by exact_mod_cast (by omega : d.S ≠ 0)
  show a * _ - (tf - t0) / (2 * d.S) * _ = _
  rw [ha]
  field_simp

/-- **C38.** With the Chebyshev scheme, all equality constraints vanish iff on every segment the polynomial interpolating each state
component satisfies the differential equation at the collocation nodes of that segment. -/
theorem collocation_iff (d : Dims) (cb : Cbs d ℝ) (o : Obj d ℝ) (junk : ℕ → ℕ → ℝ) (var c0 : ℕ → ℝ) (hS : 1 ≤ d.S) (hN : 1 ≤ d.N)
    (hw : ∀ z t old old', ∀ i < d.NX, cb.dyn z t old i = cb.dyn z t old' i) {t0 tf : ℝ} (h : t0 < tf) :
    let o' := setTimeLimits d (chebApprox d.N) o t0 tf
    (∀ r < d.NEQ, constraints d (chebApprox d.N) cb o' junk var c0 r = 0) ↔
    ∀ s < d.S, ∀ i < d.NX, ∃ Q : ℝ[X], Q.natDegree ≤ d.N ∧
      (∀ l ≤ d.N, Q.eval (o'.time (s * d.N + l)) = var ((s * d.N + l) * d.NX + i)) ∧
      ∀ j ≤ d.N, (j < d.N ∨ s + 1 = d.S) → Q.derivative.eval (o'.time (s * d.N + j))
        = cb.dyn (node d var (s * d.N + j)) (o'.time (s * d.N + j)) (fun _ => 0) i := by
  intro o'
  have hS0 : (0 : ℝ) < d.S := by exact_mod_cast hS
  have hts : (tf - t0) / (2 * d.S) ≠ 0 := by have := sub_pos.2 h; positivity
  constructor
  · intro hz s hs i hi
    -- the interpolant
    let v : Fin (d.N + 1) → ℝ := fun l => o'.time (s * d.N + l)
    have hinj : Set.InjOn v (Finset.univ : Finset (Fin (d.N + 1))) := by
      intro a _ b _ hab
      have key : ∀ a b : Fin (d.N + 1), a < b → v b < v a := fun a b hlt =>
        time_strictAnti d _ (cheb_good hN) o h (by have : a.val < b.val := hlt; omega) (node_lt d hs (by omega))
      rcases lt_trichotomy a b with h' | h' | h'
      · exact absurd hab (ne_of_gt (key a b h'))
      · exact h'
      · exact absurd hab (ne_of_lt (key b a h'))
    let Q := Lagrange.interpolate Finset.univ v fun l => var ((s * d.N + l) * d.NX + i)
    have hQ : Q.natDegree ≤ d.N := by
      have := Lagrange.degree_interpolate_lt (fun l : Fin (d.N + 1) => var ((s * d.N + l) * d.NX + i)) hinj
      rw [Finset.card_univ, Fintype.card_fin] at this
      exact natDegree_le_iff_coeff_eq_zero.2 fun m hm => (degree_lt_iff_coeff_zero _ _).1 this m hm
    have hv : ∀ l ≤ d.N, Q.eval (o'.time (s * d.N + l)) = var ((s * d.N + l) * d.NX + i) := by
      intro l hl
      exact Lagrange.eval_interpolate_at_node (fun l : Fin (d.N + 1) => var ((s * d.N + l) * d.NX + i)) hinj (Finset.mem_univ ⟨l, by omega⟩)
    refine ⟨Q, hQ, hv, fun j hj hjs => ?_⟩
    have e := cheb_residual_poly d cb o junk var c0 hN hw t0 tf hs hi Q hQ hv j hj hjs
    rw [hz _ (xIdx_lt d (node_lt d hs hj) hi)] at e
    rcases mul_eq_zero.1 e.symm with e | e
    · exact absurd e hts
    · exact sub_eq_zero.1 e
  · intro hq r hr
    obtain ⟨k, i, hk, hi, rfl⟩ := blk_split hr
    obtain ⟨s, j, hs, hj, hjs, rfl⟩ := node_split d hS hN hk
    obtain ⟨Q, hQ, hv, hd⟩ := hq s hs i hi
    rw [cheb_residual_poly d cb o junk var c0 hN hw t0 tf hs hi Q hQ hv j hj hjs, hd j hj hjs, sub_self, mul_zero]

/-- **C38.** The inequality part of the constraint vector is the path constraint at every node. -/
theorem path_constraint (d : Dims) (A : Approx ℝ) (cb : Cbs d ℝ) (o : Obj d ℝ) (junk : ℕ → ℕ → ℝ) (var c0 : ℕ → ℝ)
    (hw : ∀ z t old old', ∀ i < d.NG, cb.ineq z t old i = cb.ineq z t old' i) {k i : ℕ} (hk : k < d.NN) (hi : i < d.NG) :
    constraints d A cb o junk var c0 (d.NEQ + (k * d.NG + i)) = cb.ineq (node d var k) (o.time k) (fun _ => 0) i := by
  have hr : k * d.NG + i < d.NINEQ := by unfold Dims.NINEQ; rw [Nat.mul_comm d.NG]; exact blk_le hi hk
  obtain ⟨c', e⟩ := constraints_ineq_part d A cb o junk var c0 hr
  rw [e, inequalities_closed d cb o var c' hw hk hi]

/-! ### C39: dense Jacobian -/

section Deriv
variable (d : Dims) (A : Approx ℝ) (cb : Cbs d ℝ) (o : Obj d ℝ) (junk : ℕ → ℕ → ℝ) (c0 : ℕ → ℝ) (J0 : ℕ → ℕ → ℝ)
  (f g : ℕ → ℕ → (Fin d.M → ℝ) → ℝ) (x : Fin d.VAR → ℝ)

/-- Rows of the combined linearisation. -/
theorem constraintsLin_eq_part (var : ℕ → ℝ) {r : ℕ} (hr : r < d.NEQ) :
    (constraintsLin d A cb o junk var c0 J0).1 r = (equalitiesLin d A cb o junk var c0).1 r ∧
    ∀ c < d.VAR, (constraintsLin d A cb o junk var c0 J0).2.1 r c = (equalitiesLin d A cb o junk var c0).2.1 r c := by
  refine ⟨?_, fun c hc => ?_⟩
  · simp only [constraintsLin, setSeg]
    rw [if_neg (by omega), if_pos (by omega), Nat.sub_zero]
  · simp only [constraintsLin, setBlock]
    rw [if_neg (by omega), if_pos (by omega), Nat.sub_zero, Nat.sub_zero]

theorem constraintsLin_ineq_part (var : ℕ → ℝ) {r : ℕ} (hr : r < d.NINEQ) :
    ∃ o' c', o'.time = o.time ∧ (constraintsLin d A cb o junk var c0 J0).1 (d.NEQ + r) = (inequalitiesLin d cb o' var c').1 r ∧
    ∀ c < d.VAR, (constraintsLin d A cb o junk var c0 J0).2.1 (d.NEQ + r) c = (inequalitiesLin d cb o' var c').2.1 r c := by
  refine ⟨(equalitiesLin d A cb o junk var c0).2.2, fun i => setSeg c0 0 d.NEQ (equalitiesLin d A cb o junk var c0).1 (d.NEQ + i),
    rfl, ?_, fun c hc => ?_⟩
  · simp only [constraintsLin, setSeg]
    rw [if_pos (by omega), Nat.add_sub_cancel_left]
  · simp only [constraintsLin, setBlock]
    rw [if_pos (by omega), Nat.add_sub_cancel_left, Nat.sub_zero]

/-- **C39.** At a point where the callbacks are exact, the dense linearisation returns the constraint values, and every row of the
returned Jacobian is the gradient of that constraint with respect to all variables. The object's earlier history, the old output
contents and the uninitialised scratch storage do not matter. -/
theorem jacobian (hS : 1 ≤ d.S) (hN : 1 ≤ d.N) (hsk : SkewEnds d A)
    (hf : ∀ k < d.NN, DynExact cb (o.time k) (f k) (node d (ext x) k)) (hg : ∀ k < d.NN, IneqExact cb (o.time k) (g k) (node d (ext x) k))
    {r : ℕ} (hr : r < d.NEQ + d.NINEQ) :
    (constraintsLin d A cb o junk (ext x) c0 J0).1 r = constraints d A cb o junk (ext x) c0 r ∧
    IsGradient (fun z => constraints d A cb o junk (ext z) c0 r) (fun c => (constraintsLin d A cb o junk (ext x) c0 J0).2.1 r c) x := by
  rcases Nat.lt_or_ge r d.NEQ with h | h
  · obtain ⟨k, i, hk, hi, rfl⟩ := blk_split h
    obtain ⟨s, j, hs, hj, hjs, rfl⟩ := node_split d hS hN hk
    set k := s * d.N + j with ek
    -- choose the AD values
    have hch : ∀ k, ∃ F : ℕ → Dual d.M ℝ, k < d.NN → ∀ i < d.NX, (∀ old, cb.dynAD (node d (ext x) k) (o.time k) old i = F i) ∧
        AdExact (F i) (f k i) (node d (ext x) k) := by
      intro k
      by_cases hk : k < d.NN
      · have : ∀ i, ∃ a, i < d.NX → (∀ old, cb.dynAD (node d (ext x) k) (o.time k) old i = a) ∧ AdExact a (f k i) (node d (ext x) k) := by
          intro i
          by_cases hi : i < d.NX
          · obtain ⟨a, ha⟩ := (hf k hk).ad i hi; exact ⟨a, fun _ => ha⟩
          · exact ⟨⟨0, fun _ => 0⟩, fun h => absurd h hi⟩
        choose F hF using this
        exact ⟨F, fun _ => hF⟩
      · exact ⟨fun _ => ⟨0, fun _ => 0⟩, fun h => absurd h hk⟩
    choose F hF using hch
    have hl := equalitiesLin_closed d A cb o junk (ext x) c0 F (fun k hk old i hi => (hF k hk i hi).1 old) hk hi
    have hp := constraintsLin_eq_part d A cb o junk c0 J0 (ext x) h
    have hclosed : ∀ z : Fin d.VAR → ℝ, constraints d A cb o junk (ext z) c0 (k * d.NX + i)
        = ∑ l ∈ Finset.range (d.N + 1), A.D j l * ext z ((s * d.N + l) * d.NX + i) - tScale d o * f k i (node d (ext z) k) := by
      intro z
      rw [constraints_eq_part d A cb o junk (ext z) c0 h]
      -- the closed form only needs the callback at the node times
      have := equalities_at d A cb o junk (ext z) c0 (fun k i => f k i (node d (ext z) k))
        (fun k hk old i hi => (hf k hk).plain _ old i hi) hk hi
      rw [this, ek, diffX_closed d A (ext z) junk hs hj hjs hi]
    refine ⟨?_, ?_⟩
    · rw [hp.1, hl.1, hclosed x, ek, diffX_closed d A (ext x) junk hs hj hjs hi, ← ek, (hF k hk i hi).2.1]
    · have e : (fun c : Fin d.VAR => (constraintsLin d A cb o junk (ext x) c0 J0).2.1 (k * d.NX + i) c)
          = fun c : Fin d.VAR => (∑ l ∈ Finset.range (d.N + 1), A.D j l * (if (s * d.N + l) * d.NX + i = c then 1 else 0))
            - tScale d o * scatter d k (ext (F k i).der) c := by
        funext c
        rw [hp.2 c c.2, hl.2 c c.2, ek, denseDiff_closed d A hS hN hsk hs hj hjs hi]
        unfold diffRow
        congr 1
        exact Finset.sum_congr rfl fun l _ => by split_ifs <;> simp
      have e2 : (fun z : Fin d.VAR → ℝ => constraints d A cb o junk (ext z) c0 (k * d.NX + i)) = _ := funext hclosed
      rw [e, e2]
      refine IsGradient.sub' (IsGradient.sum' _ fun l hl => IsGradient.smul' _ (isGradient_ext ?_ x)) (IsGradient.smul' _ (isGradient_node d hk (hF k hk i hi).2.2))
      have := xIdx_lt d (node_lt d hs (show l ≤ d.N by have := Finset.mem_range.1 hl; omega)) hi
      unfold Dims.VAR; omega
  · obtain ⟨q, rfl⟩ : ∃ q, r = d.NEQ + q := ⟨r - d.NEQ, by omega⟩
    have hq : q < d.NINEQ := by omega
    obtain ⟨k, i, hk, hi, rfl⟩ := blk_split hq
    have hch : ∀ k, ∃ F : ℕ → Dual d.M ℝ, k < d.NN → ∀ i < d.NG, (∀ old, cb.ineqAD (node d (ext x) k) (o.time k) old i = F i) ∧
        AdExact (F i) (g k i) (node d (ext x) k) := by
      intro k
      by_cases hk : k < d.NN
      · have : ∀ i, ∃ a, i < d.NG → (∀ old, cb.ineqAD (node d (ext x) k) (o.time k) old i = a) ∧ AdExact a (g k i) (node d (ext x) k) := by
          intro i
          by_cases hi : i < d.NG
          · obtain ⟨a, ha⟩ := (hg k hk).ad i hi; exact ⟨a, fun _ => ha⟩
          · exact ⟨⟨0, fun _ => 0⟩, fun h => absurd h hi⟩
        choose F hF using this
        exact ⟨F, fun _ => hF⟩
      · exact ⟨fun _ => ⟨0, fun _ => 0⟩, fun h => absurd h hk⟩
    choose F hF using hch
    obtain ⟨o', c', ht, hv, hJ⟩ := constraintsLin_ineq_part d A cb o junk c0 J0 (ext x) hq
    have hl := inequalitiesLin_closed d cb o' (ext x) c' F (fun k hk old i hi => by rw [ht]; exact (hF k hk i hi).1 old) hk hi
    have hclosed : ∀ z : Fin d.VAR → ℝ, constraints d A cb o junk (ext z) c0 (d.NEQ + (k * d.NG + i)) = g k i (node d (ext z) k) := by
      intro z
      obtain ⟨c'', e⟩ := constraints_ineq_part d A cb o junk (ext z) c0 hq
      rw [e]
      exact inequalities_at d cb o (ext z) c'' (fun k i => g k i (node d (ext z) k))
        (fun k hk old i hi => (hg k hk).plain _ old i hi) hk hi
    refine ⟨?_, ?_⟩
    · rw [hv, hl.1, hclosed x, (hF k hk i hi).2.1]
    · have e : (fun c : Fin d.VAR => (constraintsLin d A cb o junk (ext x) c0 J0).2.1 (d.NEQ + (k * d.NG + i)) c)
          = fun c : Fin d.VAR => scatter d k (ext (F k i).der) c := by
        funext c; rw [hJ c c.2, hl.2 c c.2]; rfl
      rw [e, funext hclosed]
      exact isGradient_node d hk (hF k hk i hi).2.2

end Deriv

end PolyMPC.Ocp
