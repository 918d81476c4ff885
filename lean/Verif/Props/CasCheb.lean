import Verif.Lemmas.CasCheb
import Verif.Props.Ocp
import Verif.Props.OcpCost
import Verif.Spec.CasCheb
import Mathlib.LinearAlgebra.Matrix.NonsingularInverse
import Mathlib.LinearAlgebra.Matrix.ToLin

/-!
# Symbolic Chebyshev transcription (C118-C126)
-/

namespace PolyMPC.CasCheb
open Ocp Spec
open Polynomial hiding ext

set_option linter.unusedSectionVars false
set_option linter.unusedVariables false

/-! ### Interpolation on one segment -/

section Segment

variable {N : ℕ}

theorem points_lt (hN : 1 ≤ N) {j l : ℕ} (h : j < l) (hl : l ≤ N) : points N l < points N j := by
  have := Cheb.nodes_strictAnti (a := (⟨j, by omega⟩ : Fin (N + 1))) (b := ⟨l, by omega⟩) h
  rwa [← points_eq, ← points_eq] at this

theorem points_ends (hN : 1 ≤ N) : points N 0 = 1 ∧ points N N = -1 := by
  have h := Cheb.nodes_ends hN
  rw [← points_eq, ← points_eq] at h
  exact h

theorem seg_exact (hN : 1 ≤ N) (a b : ℝ) {Q : ℝ[X]} (hQ : Q.natDegree ≤ N) {v : ℕ → ℝ}
    (hv : ∀ l ≤ N, v l = Q.eval (a * points N l + b)) {j : ℕ} (hj : j ≤ N) :
    ∑ l ∈ Finset.range (N + 1), (scheme N).D j l * v l = a * Q.derivative.eval (a * points N j + b) := by
  let P : ℝ[X] := Q.comp (C a * X + C b)
  have hP : P.natDegree ≤ N := by
    refine natDegree_comp_le.trans ?_
    have : (C a * X + C b : ℝ[X]).natDegree ≤ 1 := natDegree_linear_le
    calc Q.natDegree * _ ≤ N * 1 := Nat.mul_le_mul hQ this
      _ = N := Nat.mul_one _
  have hx := Cheb.diffMatrix_exact hN hP ⟨j, by omega⟩
  rw [Finset.sum_range]
  have e : ∀ l : Fin (N + 1), (scheme N).D j l * v l = Cheb.diffMatrix N ⟨j, by omega⟩ l * P.eval (Cheb.nodes N l) := fun l => by
    rw [hv l (by omega)]
    have := diffMatrix_eq (N := N) ⟨j, by omega⟩ l
    rw [← this, ← points_eq]
    simp [P, eval_comp, scheme]
  rw [Finset.sum_congr rfl fun l _ => e l, hx, ← points_eq]
  simp only [P, derivative_comp, eval_mul, eval_comp]
  simp

theorem seg_interp (hN : 1 ≤ N) {a : ℝ} (ha : a ≠ 0) (b : ℝ) (v : ℕ → ℝ) :
    ∃ Q : ℝ[X], Q.natDegree ≤ N ∧ ∀ l ≤ N, v l = Q.eval (a * points N l + b) := by
  let x : Fin (N + 1) → ℝ := fun l => a * points N l + b
  have hinj : Set.InjOn x (Finset.univ : Finset (Fin (N + 1))) := by
    intro p _ q _ h
    have : points N p = points N q := mul_left_cancel₀ ha (add_right_cancel h)
    exact Cheb.nodes_injective this
  refine ⟨Lagrange.interpolate Finset.univ x fun l => v l, ?_, fun l hl => ?_⟩
  · have := Lagrange.degree_interpolate_lt (fun l : Fin (N + 1) => v l) hinj
    rw [Finset.card_univ, Fintype.card_fin] at this
    exact natDegree_le_iff_coeff_eq_zero.2 fun m hm => (degree_lt_iff_coeff_zero _ _).1 this m hm
  · exact (Lagrange.eval_interpolate_at_node (fun l : Fin (N + 1) => v l) hinj (Finset.mem_univ ⟨l, by omega⟩)).symm

/-- A polynomial of degree at most `N` vanishing at `N + 1` nodes is zero. -/
theorem seg_zero (hN : 1 ≤ N) {a : ℝ} (ha : a ≠ 0) (b : ℝ) {Q : ℝ[X]} (hQ : Q.natDegree ≤ N) (h : ∀ l ≤ N, Q.eval (a * points N l + b) = 0) :
    Q = 0 := by
  by_contra hne
  have hinj : Function.Injective fun l : Fin (N + 1) => a * points N l + b := by
    intro p q h
    have : points N p = points N q := mul_left_cancel₀ ha (add_right_cancel h)
    exact Cheb.nodes_injective this
  have := card_le_degree_of_subset_roots (p := Q) (Z := Finset.univ.image fun l : Fin (N + 1) => a * points N l + b) (by
    intro y hy
    have hy : y ∈ Finset.univ.image fun l : Fin (N + 1) => a * points N l + b := hy
    obtain ⟨l, -, rfl⟩ := Finset.mem_image.1 hy
    exact (mem_roots hne).2 (h l (by omega)))
  rw [Finset.card_image_of_injective _ hinj, Finset.card_univ, Fintype.card_fin] at this
  omega

theorem segTime_eq (S : ℕ) (t0 tf : ℝ) (s l : ℕ) :
    segTime S N t0 tf s l = (tf - t0) / S / 2 * points N l + (tf - s * ((tf - t0) / S) - (tf - t0) / S / 2) := by
  unfold segTime points; ring

theorem segTime_junction (hN : 1 ≤ N) (S : ℕ) (t0 tf : ℝ) (s : ℕ) : segTime S N t0 tf s N = segTime S N t0 tf (s + 1) 0 := by
  rw [segTime_eq, segTime_eq, (points_ends hN).1, (points_ends hN).2]; push_cast; ring

theorem scale_eq (d : Dims) (t0 tf : ℝ) : tScale d t0 tf = (tf - t0) / d.S / 2 := by
  unfold tScale; push_cast; rw [mul_comm, div_mul_eq_div_div]

theorem scale_pos (d : Dims) (hS : 1 ≤ d.S) {t0 tf : ℝ} (h : t0 < tf) : 0 < (tf - t0) / d.S / 2 := by
  have : (0 : ℝ) < d.S := by exact_mod_cast hS
  have := sub_pos.2 h; positivity

end Segment

/-! ### C118: dynamics -/

/-- **C118.** The nodes, differentiation matrix and quadrature weights of the symbolic classes are those of the template class. -/
theorem scheme_template {N i j : ℕ} (hi : i ≤ N) (hj : j ≤ N) :
    (scheme N).D i j = (chebApprox N).D i j ∧ (scheme N).nodes i = (chebApprox N).nodes i ∧ (scheme N).w i = (chebApprox N).w i :=
  scheme_eq hi hj

/-- **C118.** What the callbacks see at a node: its state, its control, the parameters. -/
theorem node_layout {K : Type} [Field K] (d : Dims) (X U P : ℕ → K) (k : ℕ) (i : Fin d.M) :
    (i.val < d.NX → nodeXU d X U P k i = X (k * d.NX + i)) ∧
    (∀ j < d.NU, i.val = d.NX + j → nodeXU d X U P k i = U (k * d.NU + j)) ∧
    (∀ j < d.NP, i.val = d.NX + d.NU + j → nodeXU d X U P k i = P j) := by
  unfold nodeXU
  refine ⟨fun h => by rw [if_pos h], fun j hj h => ?_, fun j hj h => ?_⟩
  · rw [if_neg (by omega), if_pos (by omega)]; congr 1; omega
  · rw [if_neg (by omega), if_neg (by omega)]; congr 1; omega

/-- **C118.** The symbolic dynamics constraint is the equality constraint that the template transcription computes for the same
time-invariant dynamics at the stacked variables, for every state of the template object. -/
theorem dynamics_template (d : Dims) (cb : Cbs d ℝ) (f : (Fin d.M → ℝ) → ℕ → ℝ) (o : Obj d ℝ) (junk : ℕ → ℕ → ℝ) (X U P c0 : ℕ → ℝ)
    (hS : 1 ≤ d.S) (hN : 1 ≤ d.N) (hf : ∀ z t old, ∀ i < d.NX, cb.dyn z t old i = f z i) (t0 tf : ℝ) {r : ℕ} (hr : r < d.NEQ) :
    collocateDynamics d (scheme d.N) f t0 tf X U P r
      = constraints d (chebApprox d.N) cb (setTimeLimits d (chebApprox d.N) o t0 tf) junk (join d X U P) c0 r := by
  obtain ⟨k, i, hk, hi, rfl⟩ := blk_split hr
  obtain ⟨s, j, hs, hj, hjs, rfl⟩ := node_split d hS hN hk
  rw [dynamics_closed d _ f t0 tf X U P hs hj hjs hi,
    residual d _ cb _ junk _ c0 (fun z t old old' i hi => by rw [hf z t old i hi, hf z t old' i hi]) hs hj hjs hi,
    node_join d X U P hk, hf _ _ _ i hi]
  congr 1
  · refine Finset.sum_congr rfl fun l hl => ?_
    have hl' : l ≤ d.N := by have := Finset.mem_range.1 hl; omega
    have hx := xIdx_lt d (node_lt d hs hl') hi
    rw [(scheme_eq hj hl').1]
    congr 1
    unfold join; rw [if_pos hx]
  · unfold tScale; push_cast; rfl

/-- **C118.** The dynamics constraint vanishes iff on every segment the polynomials through the state values satisfy the differential
equation at the collocation nodes of the segment. -/
theorem dynamics_iff (d : Dims) (f : (Fin d.M → ℝ) → ℕ → ℝ) (X U P : ℕ → ℝ) (hS : 1 ≤ d.S) (hN : 1 ≤ d.N) {t0 tf : ℝ} (h : t0 < tf) :
    (∀ r < d.VARX, collocateDynamics d (scheme d.N) f t0 tf X U P r = 0) ↔
    ∀ s < d.S, ∀ i < d.NX, ∃ Q : ℝ[X], Q.natDegree ≤ d.N ∧
      (∀ l ≤ d.N, Q.eval (segTime d.S d.N t0 tf s l) = X ((s * d.N + l) * d.NX + i)) ∧
      ∀ j ≤ d.N, (j < d.N ∨ s + 1 = d.S) →
        Q.derivative.eval (segTime d.S d.N t0 tf s j) = f (nodeXU d X U P (s * d.N + j)) i := by
  have ha := scale_pos d hS h
  have key : ∀ s < d.S, ∀ i < d.NX, ∀ Q : ℝ[X], Q.natDegree ≤ d.N →
      (∀ l ≤ d.N, Q.eval (segTime d.S d.N t0 tf s l) = X ((s * d.N + l) * d.NX + i)) → ∀ j ≤ d.N, (j < d.N ∨ s + 1 = d.S) →
      collocateDynamics d (scheme d.N) f t0 tf X U P ((s * d.N + j) * d.NX + i)
        = (tf - t0) / d.S / 2 * (Q.derivative.eval (segTime d.S d.N t0 tf s j) - f (nodeXU d X U P (s * d.N + j)) i) := by
    intro s hs i hi Q hQ hv j hj hjs
    rw [dynamics_closed d _ f t0 tf X U P hs hj hjs hi,
      seg_exact hN ((tf - t0) / d.S / 2) (tf - s * ((tf - t0) / d.S) - (tf - t0) / d.S / 2) hQ
        (fun l hl => by rw [← segTime_eq, hv l hl]) hj, ← segTime_eq, scale_eq]
    ring
  constructor
  · intro hz s hs i hi
    obtain ⟨Q, hQ, hv⟩ := seg_interp hN ha.ne' (tf - s * ((tf - t0) / d.S) - (tf - t0) / d.S / 2) fun l => X ((s * d.N + l) * d.NX + i)
    have hv' : ∀ l ≤ d.N, Q.eval (segTime d.S d.N t0 tf s l) = X ((s * d.N + l) * d.NX + i) := fun l hl => by
      rw [segTime_eq, ← hv l hl]
    refine ⟨Q, hQ, hv', fun j hj hjs => ?_⟩
    have e := key s hs i hi Q hQ hv' j hj hjs
    rw [hz _ (xIdx_lt d (node_lt d hs hj) hi)] at e
    rcases mul_eq_zero.1 e.symm with e | e
    · exact absurd e ha.ne'
    · exact sub_eq_zero.1 e
  · intro hq r hr
    obtain ⟨k, i, hk, hi, rfl⟩ := blk_split hr
    obtain ⟨s, j, hs, hj, hjs, rfl⟩ := node_split d hS hN hk
    obtain ⟨Q, hQ, hv, hd⟩ := hq s hs i hi
    rw [key s hs i hi Q hQ hv j hj hjs, hd j hj hjs, sub_self, mul_zero]

/-! ### C119: cost -/

/-- **C119.** The symbolic cost is the composite quadrature of the running cost plus the terminal cost, and equals the cost of the
template transcription. -/
theorem cost_template (d : Dims) (cb : Cbs d ℝ) (l : (Fin d.M → ℝ) → ℝ) (m : (ℕ → ℝ) → (ℕ → ℝ) → ℝ) (o : Obj d ℝ) (X U P : ℕ → ℝ)
    (hl : ∀ z t old, cb.lag z t old = l z) (hm : ∀ t, cb.mayer (nodeXU d X U P 0) t 0 = m X P) (t0 tf : ℝ) :
    collocateCost d (scheme d.N) (some m) (some l) t0 tf X U P
      = cost d (chebApprox d.N) cb (setTimeLimits d (chebApprox d.N) o t0 tf) (join d X U P) := by
  rw [cost_quadrature d _ cb _ _ (fun k => l (node d (join d X U P) k)) (fun k _ old => hl _ _ old),
    node_join d X U P (zero_lt_NN d), hm]
  unfold collocateCost
  rw [add_comm]
  congr 1
  show lagrangePart d (scheme d.N) l t0 tf X U P = _
  rw [lagrange_closed]
  refine Finset.sum_congr rfl fun s hs => ?_
  rw [Finset.mul_sum]
  refine Finset.sum_congr rfl fun j hj => ?_
  have hj' : j ≤ d.N := by have := Finset.mem_range.1 hj; omega
  rw [(scheme_eq hj' hj').2.2, node_join d X U P (node_lt d (Finset.mem_range.1 hs) hj'), ← mul_assoc]
  congr 2
  unfold tScale; push_cast; rfl

/-- Quadrature of a polynomial on one segment. -/
theorem seg_integral (d : Dims) (hS : 1 ≤ d.S) (hN : 1 ≤ d.N) {t0 tf : ℝ} (h : t0 < tf) (s : ℕ) {Q : ℝ[X]} (hQ : Q.natDegree ≤ d.N) :
    tScale d t0 tf * ∑ m ∈ Finset.range (d.N + 1), (scheme d.N).w m * Q.eval (segTime d.S d.N t0 tf s m)
      = ∫ t in (segTime d.S d.N t0 tf s d.N)..(segTime d.S d.N t0 tf s 0), Q.eval t := by
  have ha := scale_pos d hS h
  set a : ℝ := (tf - t0) / d.S / 2 with hadef
  set b : ℝ := tf - s * ((tf - t0) / d.S) - (tf - t0) / d.S / 2 with hb
  let R : ℝ[X] := Q.comp (C a * X + C b)
  have hR : R.natDegree ≤ d.N := by
    refine natDegree_comp_le.trans ?_
    have : (C a * X + C b : ℝ[X]).natDegree ≤ 1 := natDegree_linear_le
    calc Q.natDegree * _ ≤ d.N * 1 := Nat.mul_le_mul hQ this
      _ = d.N := Nat.mul_one _
  have hx := Cheb.intWeights_exact hN hR
  have e1 : ∑ m ∈ Finset.range (d.N + 1), (scheme d.N).w m * Q.eval (segTime d.S d.N t0 tf s m)
      = ∑ i, R.eval (Cheb.nodes d.N i) * Cheb.intWeights d.N i := by
    rw [Finset.sum_range]
    refine Finset.sum_congr rfl fun l _ => ?_
    have hw : (scheme d.N).w l = Cheb.intWeights d.N l := quadWeights_eq l
    rw [hw, segTime_eq, ← points_eq, mul_comm]
    simp only [R, eval_comp, eval_add, eval_mul, eval_C, eval_X]
    rfl
  have e2 : ∫ t in (-1 : ℝ)..1, R.eval t = ∫ t in (-1 : ℝ)..1, (fun y => Q.eval y) (a * t + b) := by
    simp [R, eval_comp]
  rw [e1, hx, e2, intervalIntegral.integral_comp_mul_add (fun y => Q.eval y) ha.ne' b, segTime_eq, segTime_eq, (points_ends hN).1,
    (points_ends hN).2, scale_eq, ← hadef, ← hb, smul_eq_mul]
  field_simp

/-- **C119.** If along the trajectory the running cost is on each segment a polynomial in time of degree at most `N`, the cost is
its integral over the horizon plus the terminal cost of the node of the final time; without a terminal or running cost the
corresponding part is zero. -/
theorem cost_integral (d : Dims) (l : (Fin d.M → ℝ) → ℝ) (mayer : Option ((ℕ → ℝ) → (ℕ → ℝ) → ℝ)) (X U P : ℕ → ℝ) (hS : 1 ≤ d.S) (hN : 1 ≤ d.N)
    {t0 tf : ℝ} (h : t0 < tf) (Q : ℕ → ℝ[X]) (hQ : ∀ s < d.S, (Q s).natDegree ≤ d.N)
    (hv : ∀ s < d.S, ∀ j ≤ d.N, (Q s).eval (segTime d.S d.N t0 tf s j) = l (nodeXU d X U P (s * d.N + j))) :
    collocateCost d (scheme d.N) mayer (some l) t0 tf X U P = (match mayer with | none => 0 | some m => m X P)
      + ∑ s ∈ Finset.range d.S, ∫ t in (segTime d.S d.N t0 tf s d.N)..(segTime d.S d.N t0 tf s 0), (Q s).eval t := by
  unfold collocateCost
  refine congrArg₂ (· + ·) (by cases mayer <;> rfl) ?_
  show lagrangePart d (scheme d.N) l t0 tf X U P = _
  rw [lagrange_closed]
  refine Finset.sum_congr rfl fun s hs => ?_
  rw [← seg_integral d hS hN h s (hQ s (Finset.mem_range.1 hs))]
  congr 1
  refine Finset.sum_congr rfl fun j hj => ?_
  rw [hv s (Finset.mem_range.1 hs) j (by have := Finset.mem_range.1 hj; omega)]

/-! ### C120: identification cost; C121: the functional form of the dynamics -/

section IdCost
variable {K : Type} [Field K]

theorem idCost_closed (d : Dims) (A : Approx K) (l : (ℕ → K) → (ℕ → K) → K) (data : ℕ → K) (t0 tf : K) (X : ℕ → K) (hX : 1 ≤ d.NX) :
    collocateIdCost d A l d.NX d.NN data t0 tf X = some (∑ s ∈ Finset.range d.S, tScale d t0 tf * ∑ m ∈ Finset.range (d.N + 1),
      A.w m * l (fun i => X ((s * d.N + m) * d.NX + i)) fun _ => 0) := by
  have ha : ∀ idx, argVec d.NX (slice data idx (idx - d.NX)) = some fun _ => 0 := by
    intro idx
    unfold slice
    rw [if_neg (by omega)]
    unfold argVec
    show ite _ _ _ = _
    rw [if_neg (by show ¬ (0 = d.NX); omega), if_pos rfl]
  have inner : ∀ s n, loop n (fun m loc => do
      let c ← loc
      let idx := d.VARX - (s * d.N + m) * d.NX
      let y ← argVec d.NX (slice data idx (idx - d.NX))
      some (c + A.w m * l (fun i => X ((s * d.N + m) * d.NX + i)) y)) (some (0 : K))
      = some (∑ m ∈ Finset.range n, A.w m * l (fun i => X ((s * d.N + m) * d.NX + i)) fun _ => 0) := by
    intro s n
    induction n with
    | zero => rfl
    | succ n ih => rw [loop_succ, ih, Finset.sum_range_succ]; simp only [ha]; rfl
  have outer : ∀ n, loop n (fun s acc => do
      let a ← acc
      let loc ← loop (d.N + 1) (fun m loc => do
        let c ← loc
        let idx := d.VARX - (s * d.N + m) * d.NX
        let y ← argVec d.NX (slice data idx (idx - d.NX))
        some (c + A.w m * l (fun i => X ((s * d.N + m) * d.NX + i)) y)) (some 0)
      some (a + tScale d t0 tf * loc)) (some (0 : K))
      = some (∑ s ∈ Finset.range n, tScale d t0 tf * ∑ m ∈ Finset.range (d.N + 1), A.w m * l (fun i => X ((s * d.N + m) * d.NX + i)) fun _ => 0) := by
    intro n
    induction n with
    | zero => rfl
    | succ n ih => rw [loop_succ, ih, Finset.sum_range_succ]; simp only [inner]; rfl
  unfold collocateIdCost
  rw [if_neg (by simp), outer]

/-- **C120 (negative).** The identification cost does not depend on the measured data: it compares the states with zero. -/
theorem idCost_ignores_data (d : Dims) (A : Approx K) (l : (ℕ → K) → (ℕ → K) → K) (rows cols : ℕ) (data data' : ℕ → K) (t0 tf : K) (X : ℕ → K)
    (hX : 1 ≤ d.NX) :
    collocateIdCost d A l rows cols data t0 tf X = collocateIdCost d A l rows cols data' t0 tf X ∧
    collocateIdCost d A l d.NX d.NN data t0 tf X = some (∑ s ∈ Finset.range d.S, tScale d t0 tf * ∑ m ∈ Finset.range (d.N + 1),
      A.w m * l (fun i => X ((s * d.N + m) * d.NX + i)) fun _ => 0) := by
  refine ⟨?_, idCost_closed d A l data t0 tf X hX⟩
  by_cases h : rows ≠ d.NX ∨ cols ≠ d.NN
  · unfold collocateIdCost; rw [if_pos h, if_pos h]
  · push Not at h
    rw [h.1, h.2, idCost_closed d A l data t0 tf X hX, idCost_closed d A l data' t0 tf X hX]

/-- **C121 (negative).** The function object for the dynamics takes the derivative of the state symbols of the class, not of its
argument: with a zero right-hand side its value does not depend on the argument. -/
theorem dynamics2_ignores_argument (d : Dims) (A : Approx K) (f : (Fin d.M → K) → ℕ → K) (t0 tf : K) (mX X U P : ℕ → K) :
    (∀ r, collocateDynamics2 d A f t0 tf mX X U P r = collocateDynamics d A f t0 tf X U P r
      + mulVec (compDiff A d.S d.N d.NX) d.VARX (fun c => mX c - X c) r) ∧
    ((∀ z i, f z i = 0) → ∀ X' U' P', ∀ k < d.NN, ∀ i < d.NX,
      collocateDynamics2 d A f t0 tf mX X U P (k * d.NX + i) = collocateDynamics2 d A f t0 tf mX X' U' P' (k * d.NX + i)) := by
  refine ⟨fun r => ?_, fun hf X' U' P' k hk i hi => ?_⟩
  · unfold collocateDynamics2 collocateDynamics mulVec
    simp only [mul_sub, Finset.sum_sub_distrib]
    ring
  · unfold collocateDynamics2
    rw [rhs_closed d f t0 tf X U P hk hi, rhs_closed d f t0 tf X' U' P' hk hi, hf, hf]

end IdCost

/-! ### C122: values and derivatives of functions -/

/-- **C122.** `CollocateFunction` throws unless the function has as many inputs as the class passes; otherwise it stacks the values at
the nodes. -/
theorem function_layout {K : Type} [Field K] (d : Dims) (ND : ℕ) (g : Fn d K) (X U P : ℕ → K) :
    (g.nIn ≠ (if d.NP = 0 ∧ ND = 0 then 2 else 4) → collocateFunction d ND g X U P = none) ∧
    (g.nIn = (if d.NP = 0 ∧ ND = 0 then 2 else 4) → ∃ F, collocateFunction d ND g X U P = some F ∧
      ∀ k < d.NN, ∀ i < g.n, F (k * g.n + i) = g.val (nodeXU d X U P k) i) := by
  unfold collocateFunction nArgs
  refine ⟨fun h => by rw [if_pos h], fun h => ?_⟩
  rw [if_neg (not_not.2 h)]
  refine ⟨_, rfl, fun k hk i hi => ?_⟩
  rw [segLoop g.n d.NN (fun k => g.val (nodeXU d X U P k)) _ hi, if_pos hk]

/-- **C122.** If each component of the function along the trajectory is one polynomial of degree at most `N` over the whole horizon, the
derivative of order `q` that the class returns is the `q`-th time derivative multiplied by `((tf - t0)/(2 S))^q`. -/
theorem differentiate_global (d : Dims) (ND : ℕ) (g : Fn d ℝ) (q : ℕ) (X U P : ℕ → ℝ) (hS : 1 ≤ d.S) (hN : 1 ≤ d.N) {t0 tf : ℝ}
    (hin : g.nIn = (if d.NP = 0 ∧ ND = 0 then 2 else 4)) (Q : ℕ → ℝ[X]) (hQ : ∀ i < g.n, (Q i).natDegree ≤ d.N)
    (hv : ∀ s < d.S, ∀ l ≤ d.N, ∀ i < g.n, g.val (nodeXU d X U P (s * d.N + l)) i = (Q i).eval (segTime d.S d.N t0 tf s l)) :
    ∃ V, differentiateFunction d ND (scheme d.N) g q X U P = some V ∧ ∀ s < d.S, ∀ j ≤ d.N, ∀ i < g.n,
      V ((s * d.N + j) * g.n + i) = ((tf - t0) / (2 * d.S)) ^ q * (derivative^[q] (Q i)).eval (segTime d.S d.N t0 tf s j) := by
  obtain ⟨F, hF, hFv⟩ := (function_layout d ND g X U P).2 hin
  unfold differentiateFunction
  rw [hF]
  refine ⟨_, rfl, ?_⟩
  have hsc : (tf - t0) / (2 * d.S) = (tf - t0) / d.S / 2 := by rw [mul_comm, div_mul_eq_div_div]
  induction q with
  | zero =>
    intro s hs j hj i hi
    show F _ = _
    rw [hFv _ (node_lt d hs hj) i hi, hv s hs j hj i hi]; simp
  | succ q ih =>
    have row : ∀ s < d.S, ∀ j ≤ d.N, (j < d.N ∨ s + 1 = d.S) → ∀ i < g.n,
        loop (q + 1) (fun _ v => mulVec (compDiff (scheme d.N) d.S d.N g.n) (d.NN * g.n) v) F ((s * d.N + j) * g.n + i)
        = ((tf - t0) / (2 * d.S)) ^ (q + 1) * (derivative^[q + 1] (Q i)).eval (segTime d.S d.N t0 tf s j) := by
      intro s hs j hj hjs i hi
      rw [loop_succ]
      show mulVec _ ((d.S * d.N + 1) * g.n) _ _ = _
      rw [compDiff_closed _ hs hj hjs hi]
      have e : ∀ l ∈ Finset.range (d.N + 1), (scheme d.N).D j l * loop q (fun _ v => mulVec (compDiff (scheme d.N) d.S d.N g.n) (d.NN * g.n) v) F
          ((s * d.N + l) * g.n + i) = ((tf - t0) / (2 * d.S)) ^ q * ((scheme d.N).D j l * (derivative^[q] (Q i)).eval (segTime d.S d.N t0 tf s l)) := by
        intro l hl
        rw [ih s hs l (by have := Finset.mem_range.1 hl; omega) i hi]; ring
      have hdeg : (derivative^[q] (Q i)).natDegree ≤ d.N := by
        refine (natDegree_iterate_derivative _ _).trans ?_
        have := hQ i hi
        omega
      rw [Finset.sum_congr rfl e, ← Finset.mul_sum,
        seg_exact hN ((tf - t0) / d.S / 2) (tf - s * ((tf - t0) / d.S) - (tf - t0) / d.S / 2) hdeg (fun l hl => by rw [segTime_eq]) hj,
        ← segTime_eq, Function.iterate_succ_apply', pow_succ, hsc]
      ring
    intro s hs j hj i hi
    by_cases hjs : j < d.N ∨ s + 1 = d.S
    · exact row s hs j hj hjs i hi
    · have ej : j = d.N := by omega
      have h2 := row (s + 1) (by omega) 0 (Nat.zero_le _) (by omega) i hi
      have e : (s + 1) * d.N + 0 = s * d.N + j := by rw [ej]; ring
      rw [e, ← segTime_junction hN] at h2
      rw [ej] at h2 ⊢
      exact h2

/-- **C122 (negative).** First and second derivative of a function that is a polynomial of degree at most `N` on each segment: the first
is exact up to the factor `(tf - t0)/(2 S)`; the second has, at the nodes of a segment that is followed by another one, an
additional term proportional to the jump of the first derivative at the junction. -/
theorem differentiate_piecewise (d : Dims) (ND : ℕ) (g : Fn d ℝ) (X U P : ℕ → ℝ) (hS : 1 ≤ d.S) (hN : 1 ≤ d.N) {t0 tf : ℝ}
    (hin : g.nIn = (if d.NP = 0 ∧ ND = 0 then 2 else 4)) (Q : ℕ → ℕ → ℝ[X]) (hQ : ∀ s < d.S, ∀ i < g.n, (Q s i).natDegree ≤ d.N)
    (hv : ∀ s < d.S, ∀ l ≤ d.N, ∀ i < g.n, g.val (nodeXU d X U P (s * d.N + l)) i = (Q s i).eval (segTime d.S d.N t0 tf s l)) :
    ∃ V W, differentiateFunction d ND (scheme d.N) g 1 X U P = some V ∧ differentiateFunction d ND (scheme d.N) g 2 X U P = some W ∧
      (∀ s < d.S, ∀ j ≤ d.N, (j < d.N ∨ s + 1 = d.S) → ∀ i < g.n, V ((s * d.N + j) * g.n + i)
        = (tf - t0) / (2 * d.S) * (Q s i).derivative.eval (segTime d.S d.N t0 tf s j)) ∧
      ∀ s, s + 1 < d.S → ∀ j < d.N, ∀ i < g.n, W ((s * d.N + j) * g.n + i)
        = ((tf - t0) / (2 * d.S)) ^ 2 * (Q s i).derivative.derivative.eval (segTime d.S d.N t0 tf s j)
          + (scheme d.N).D j d.N * ((tf - t0) / (2 * d.S)) * ((Q (s + 1) i).derivative.eval (segTime d.S d.N t0 tf s d.N)
            - (Q s i).derivative.eval (segTime d.S d.N t0 tf s d.N)) := by
  obtain ⟨F, hF, hFv⟩ := (function_layout d ND g X U P).2 hin
  unfold differentiateFunction
  rw [hF]
  refine ⟨_, _, rfl, rfl, ?_⟩
  have hsc : (tf - t0) / (2 * d.S) = (tf - t0) / d.S / 2 := by rw [mul_comm, div_mul_eq_div_div]
  have row : ∀ s < d.S, ∀ j ≤ d.N, (j < d.N ∨ s + 1 = d.S) → ∀ i < g.n,
      mulVec (compDiff (scheme d.N) d.S d.N g.n) (d.NN * g.n) F ((s * d.N + j) * g.n + i)
      = (tf - t0) / (2 * d.S) * (Q s i).derivative.eval (segTime d.S d.N t0 tf s j) := by
    intro s hs j hj hjs i hi
    show mulVec _ ((d.S * d.N + 1) * g.n) _ _ = _
    rw [compDiff_closed _ hs hj hjs hi,
      seg_exact hN ((tf - t0) / d.S / 2) (tf - s * ((tf - t0) / d.S) - (tf - t0) / d.S / 2) (hQ s hs i hi)
        (fun l hl => by rw [hFv _ (node_lt d hs hl) i hi, hv s hs l hl i hi, segTime_eq]) hj, ← segTime_eq, hsc]
  refine ⟨row, fun s hs j hj i hi => ?_⟩
  show mulVec _ ((d.S * d.N + 1) * g.n) (mulVec _ (d.NN * g.n) F) _ = _
  rw [compDiff_closed _ (by omega) hj.le (Or.inl hj) hi, Finset.sum_range_succ]
  have eN : (s * d.N + d.N) = (s + 1) * d.N + 0 := by ring
  have hlast : mulVec (compDiff (scheme d.N) d.S d.N g.n) (d.NN * g.n) F ((s * d.N + d.N) * g.n + i)
      = (tf - t0) / (2 * d.S) * (Q (s + 1) i).derivative.eval (segTime d.S d.N t0 tf s d.N) := by
    rw [eN, row (s + 1) hs 0 (Nat.zero_le _) (by omega) i hi, segTime_junction hN]
  rw [hlast]
  have hdeg : (Q s i).derivative.natDegree ≤ d.N := by
    refine (natDegree_derivative_le _).trans ?_
    have := hQ s (by omega) i hi
    omega
  have hx := seg_exact hN ((tf - t0) / d.S / 2) (tf - s * ((tf - t0) / d.S) - (tf - t0) / d.S / 2) hdeg
    (v := fun l => (Q s i).derivative.eval (segTime d.S d.N t0 tf s l)) (fun l hl => by rw [segTime_eq]) hj.le
  rw [Finset.sum_range_succ, ← segTime_eq, ← hsc] at hx
  have e : ∀ l ∈ Finset.range d.N, (scheme d.N).D j l * mulVec (compDiff (scheme d.N) d.S d.N g.n) (d.NN * g.n) F ((s * d.N + l) * g.n + i)
      = (tf - t0) / (2 * d.S) * ((scheme d.N).D j l * (Q s i).derivative.eval (segTime d.S d.N t0 tf s l)) := by
    intro l hl
    have := Finset.mem_range.1 hl
    rw [row s (by omega) l this.le (Or.inl this) i hi]; ring
  rw [Finset.sum_congr rfl e, ← Finset.mul_sum]
  linear_combination ((tf - t0) / (2 * d.S)) * hx

/-! ### C123: modes without input -/

section Modes
open Matrix

/-- Polynomials with `Q' = A Q` for an invertible `A` vanish. -/
theorem poly_modes_zero {m : ℕ} (A : Matrix (Fin m) (Fin m) ℝ) (hA : A.det ≠ 0) (Q : Fin m → ℝ[X])
    (h : ∀ a, (Q a).derivative = ∑ b, C (A a b) * Q b) : Q = 0 := by
  have hinj : ∀ v : Fin m → ℝ, A.mulVec v = 0 → v = 0 := fun v hv => by
    by_contra hne
    exact hA (Matrix.exists_mulVec_eq_zero_iff.1 ⟨v, hne, hv⟩)
  obtain ⟨B, hB⟩ : ∃ B, ∀ a, (Q a).natDegree ≤ B :=
    ⟨Finset.univ.sup fun a => (Q a).natDegree, fun a => Finset.le_sup (f := fun a => (Q a).natDegree) (Finset.mem_univ a)⟩
  have step : ∀ n, (∀ a, (Q a).coeff (n + 1) = 0) → ∀ a, (Q a).coeff n = 0 := by
    intro n hn
    have : A.mulVec (fun b => (Q b).coeff n) = 0 := by
      funext a
      have := congrArg (fun p : ℝ[X] => p.coeff n) (h a)
      simp only [coeff_derivative, hn a, zero_mul, finsetSum_coeff, coeff_C_mul] at this
      exact this.symm
    exact fun a => congrFun (hinj _ this) a
  have all : ∀ k n, B < n + k → ∀ a, (Q a).coeff n = 0 := by
    intro k
    induction k with
    | zero => intro n hn a; exact coeff_eq_zero_of_natDegree_lt (by have := hB a; omega)
    | succ k ih => intro n hn; exact step n (ih (n + 1) (by omega))
  funext a
  ext n
  simpa using all (B + 1) n (by omega) a

/-- Polynomials of degree at most `N` with `Q' = A Q + β` at the `N + 1` nodes of a segment are constant. -/
theorem seg_modes {N m : ℕ} (hN : 1 ≤ N) {a : ℝ} (ha : a ≠ 0) (b : ℝ) (A : Matrix (Fin m) (Fin m) ℝ) (hA : A.det ≠ 0) (β : Fin m → ℝ)
    (Q : Fin m → ℝ[X]) (hQ : ∀ i, (Q i).natDegree ≤ N)
    (h : ∀ i, ∀ l ≤ N, (Q i).derivative.eval (a * points N l + b) = ∑ k, A i k * (Q k).eval (a * points N l + b) + β i) :
    ∀ i, (Q i).derivative = 0 := by
  have hp : ∀ i, (Q i).derivative - ((∑ k, C (A i k) * Q k) + C (β i)) = 0 := by
    intro i
    refine seg_zero hN ha b ?_ fun l hl => ?_
    · refine (natDegree_sub_le _ _).trans (max_le ?_ ((natDegree_add_le _ _).trans (max_le ?_ ?_)))
      · refine (natDegree_derivative_le _).trans ?_
        have := hQ i
        omega
      · exact natDegree_sum_le_of_forall_le _ _ fun k _ => (natDegree_C_mul_le _ _).trans (hQ k)
      · rw [natDegree_C]; omega
    · rw [eval_sub, h i l hl, eval_add, eval_C, eval_finsetSum]
      simp
  have hR := poly_modes_zero A hA (fun i => (Q i).derivative) fun i => by
    have := congrArg derivative (sub_eq_zero.1 (hp i))
    rw [this, derivative_add, derivative_C, add_zero, derivative_sum]
    exact Finset.sum_congr rfl fun k _ => by rw [derivative_C_mul]
  exact fun i => congrFun hR i

/-- Values at the nodes: constant; zero without `β`. -/
theorem seg_modes_values {N m n : ℕ} (hN : 1 ≤ N) {a : ℝ} (ha : a ≠ 0) (b : ℝ) (A : Matrix (Fin m) (Fin m) ℝ) (hA : A.det ≠ 0) (β : Fin m → ℝ)
    (M : Fin m → ℕ → ℝ) (Q : ℕ → ℝ[X]) (hQ : ∀ i < n, (Q i).natDegree ≤ N) (v F : ℕ → ℕ → ℝ)
    (hv : ∀ i < n, ∀ l ≤ N, (Q i).eval (a * points N l + b) = v l i) (hd : ∀ i < n, ∀ l ≤ N, (Q i).derivative.eval (a * points N l + b) = F l i)
    (hF : ∀ l ≤ N, ∀ c, ∑ i ∈ Finset.range n, M c i * F l i = ∑ e, A c e * (∑ i ∈ Finset.range n, M e i * v l i) + β c) (l : ℕ) (hl : l ≤ N) :
    (∀ c, ∑ i ∈ Finset.range n, M c i * v l i = ∑ i ∈ Finset.range n, M c i * v 0 i) ∧
    (∀ c, ∑ e, A c e * (∑ i ∈ Finset.range n, M e i * v l i) = - β c) := by
  let R : Fin m → ℝ[X] := fun c => ∑ i ∈ Finset.range n, C (M c i) * Q i
  have hRv : ∀ c, ∀ l ≤ N, (R c).eval (a * points N l + b) = ∑ i ∈ Finset.range n, M c i * v l i := fun c l hl => by
    simp only [R, eval_finsetSum, eval_mul, eval_C]
    exact Finset.sum_congr rfl fun i hi => by rw [hv i (Finset.mem_range.1 hi) l hl]
  have hRd : ∀ c, ∀ l ≤ N, (R c).derivative.eval (a * points N l + b) = ∑ i ∈ Finset.range n, M c i * F l i := fun c l hl => by
    simp only [R, derivative_sum, derivative_C_mul, eval_finsetSum, eval_mul, eval_C]
    exact Finset.sum_congr rfl fun i hi => by rw [hd i (Finset.mem_range.1 hi) l hl]
  have hRdeg : ∀ c, (R c).natDegree ≤ N := fun c =>
    natDegree_sum_le_of_forall_le _ _ fun i hi => (natDegree_C_mul_le _ _).trans (hQ i (Finset.mem_range.1 hi))
  have key := seg_modes hN ha b A hA β R hRdeg fun c l hl => by
    rw [hRd c l hl, hF l hl c]
    congr 1
    exact Finset.sum_congr rfl fun e _ => by rw [hRv e l hl]
  refine ⟨fun c => ?_, fun c => ?_⟩
  · rw [← hRv c l hl, ← hRv c 0 (Nat.zero_le _)]
    have := derivative_eq_zero.1 (key c)
    rw [eq_C_of_natDegree_eq_zero this, eval_C, eval_C]
  · have h1 := hF l hl c
    rw [← hRd c l hl, key c, eval_zero] at h1
    linarith

theorem mulVec_inj {m : ℕ} {A : Matrix (Fin m) (Fin m) ℝ} (hA : A.det ≠ 0) {v : Fin m → ℝ} (h : ∀ c, ∑ e, A c e * v e = 0) : v = 0 := by
  by_contra hne
  exact hA (Matrix.exists_mulVec_eq_zero_iff.1 ⟨v, hne, funext h⟩)

/-- **C123 (negative).** Let linear combinations `M x` of the states obey `d/dt (M x) = A (M x)` with `A` invertible, whatever the
controls and parameters. Then the equality constraints of the template transcription force `M x = 0` at all nodes of the segment
that contains the initial time: with an initial state for which `M x ≠ 0` the problem is infeasible. -/
theorem ocp_modes (d : Dims) (cb : Cbs d ℝ) (o : Obj d ℝ) (junk : ℕ → ℕ → ℝ) (var c0 : ℕ → ℝ) (hS : 1 ≤ d.S) (hN : 1 ≤ d.N)
    (hw : ∀ z t old old', ∀ i < d.NX, cb.dyn z t old i = cb.dyn z t old' i) {t0 tf : ℝ} (h : t0 < tf) {m : ℕ} (A : Matrix (Fin m) (Fin m) ℝ)
    (hA : A.det ≠ 0) (M : Fin m → ℕ → ℝ)
    (hM : ∀ z t old c, ∑ i ∈ Finset.range d.NX, M c i * cb.dyn z t old i
      = ∑ e, A c e * ∑ i ∈ Finset.range d.NX, M e i * (if hi : i < d.M then z ⟨i, hi⟩ else 0))
    (hz : ∀ r < d.NEQ, constraints d (chebApprox d.N) cb (setTimeLimits d (chebApprox d.N) o t0 tf) junk var c0 r = 0)
    (c : Fin m) (l : ℕ) (hl : l ≤ d.N) : ∑ i ∈ Finset.range d.NX, M c i * var (((d.S - 1) * d.N + l) * d.NX + i) = 0 := by
  have ha := scale_pos d hS h
  have hs : d.S - 1 < d.S := by omega
  have hq := (collocation_iff d cb o junk var c0 hS hN hw h).1 hz (d.S - 1) hs
  have ht : ∀ l ≤ d.N, (setTimeLimits d (chebApprox d.N) o t0 tf).time ((d.S - 1) * d.N + l)
      = (tf - t0) / d.S / 2 * points d.N l + (tf - (d.S - 1 : ℕ) * ((tf - t0) / d.S) - (tf - t0) / d.S / 2) := fun l hl => by
    rw [time_grid d _ (cheb_good hN) o t0 tf hs hl, ← (scheme_eq (N := d.N) hl hl).2.1]
    show _ - (1 - points d.N l) * _ = _
    ring
  choose! Q hQ hv hd using hq
  have hx : ∀ l ≤ d.N, ∀ i < d.NX, (if hi : i < d.M then node d var ((d.S - 1) * d.N + l) ⟨i, hi⟩ else 0)
      = var (((d.S - 1) * d.N + l) * d.NX + i) := fun l hl i hi => by
    rw [dif_pos (by unfold Dims.M; omega)]; unfold node; rw [if_pos hi]
  have hv' := fun i hi l hl => (ht l hl) ▸ hv i hi l hl
  have hd' := fun i hi l hl => (ht l hl) ▸ hd i hi l hl (Or.inr (by omega))
  have key := seg_modes_values (n := d.NX) hN ha.ne' (tf - (d.S - 1 : ℕ) * ((tf - t0) / d.S) - (tf - t0) / d.S / 2) A hA (fun _ => 0) M Q hQ
    (fun l i => var (((d.S - 1) * d.N + l) * d.NX + i)) _ hv' hd' ?_ l hl
  · exact congrFun (mulVec_inj hA (v := fun c => ∑ i ∈ Finset.range d.NX, M c i * var (((d.S - 1) * d.N + l) * d.NX + i))
      fun c => by rw [key.2 c, neg_zero]) c
  · intro l hl c
    show ∑ i ∈ Finset.range d.NX, M c i * cb.dyn _ _ _ i = _
    rw [hM, add_zero]
    refine Finset.sum_congr rfl fun e _ => ?_
    congr 1
    exact Finset.sum_congr rfl fun i hi => by rw [hx l hl i (Finset.mem_range.1 hi)]

/-- **C123 (negative).** The same for the symbolic transcription. -/
theorem cas_modes (d : Dims) (f : (Fin d.M → ℝ) → ℕ → ℝ) (X U P : ℕ → ℝ) (hS : 1 ≤ d.S) (hN : 1 ≤ d.N) {t0 tf : ℝ} (h : t0 < tf) {m : ℕ}
    (A : Matrix (Fin m) (Fin m) ℝ) (hA : A.det ≠ 0) (M : Fin m → ℕ → ℝ)
    (hM : ∀ z c, ∑ i ∈ Finset.range d.NX, M c i * f z i
      = ∑ e, A c e * ∑ i ∈ Finset.range d.NX, M e i * (if hi : i < d.M then z ⟨i, hi⟩ else 0))
    (hz : ∀ r < d.VARX, collocateDynamics d (scheme d.N) f t0 tf X U P r = 0) (c : Fin m) (l : ℕ) (hl : l ≤ d.N) :
    ∑ i ∈ Finset.range d.NX, M c i * X (((d.S - 1) * d.N + l) * d.NX + i) = 0 := by
  have ha := scale_pos d hS h
  have hs : d.S - 1 < d.S := by omega
  have hq := (dynamics_iff d f X U P hS hN h).1 hz (d.S - 1) hs
  simp only [segTime_eq] at hq
  choose! Q hQ hv hd using hq
  have hd' := fun i hi l hl => hd i hi l hl (Or.inr (by omega))
  have key := seg_modes_values (n := d.NX) hN ha.ne' (tf - (d.S - 1 : ℕ) * ((tf - t0) / d.S) - (tf - t0) / d.S / 2) A hA (fun _ => 0) M Q hQ
    (fun l i => X (((d.S - 1) * d.N + l) * d.NX + i)) _ hv hd' ?_ l hl
  · exact congrFun (mulVec_inj hA (v := fun c => ∑ i ∈ Finset.range d.NX, M c i * X (((d.S - 1) * d.N + l) * d.NX + i))
      fun c => by rw [key.2 c, neg_zero]) c
  · intro l hl c
    show ∑ i ∈ Finset.range d.NX, M c i * f _ i = _
    rw [hM, add_zero]
    refine Finset.sum_congr rfl fun e _ => ?_
    congr 1
    refine Finset.sum_congr rfl fun i hi => ?_
    have hi := Finset.mem_range.1 hi
    rw [dif_pos (by unfold Dims.M; omega)]
    unfold nodeXU
    rw [if_pos hi]

end Modes

/-! ### C124: soft collocation -/

/-- **C124.** The penalty of the soft transcription is nonnegative, and it vanishes iff the hard dynamics constraint does. -/
theorem soft_zero_iff (d : Dims) (f : (Fin d.M → ℝ) → ℕ → ℝ) (X U P : ℕ → ℝ) (hS : 1 ≤ d.S) (hN : 1 ≤ d.N) {t0 tf : ℝ} (h : t0 < tf) :
    0 ≤ softDynamics d (scheme d.N) f t0 tf X U P ∧
    (softDynamics d (scheme d.N) f t0 tf X U P = 0 ↔ ∀ r < d.VARX, collocateDynamics d (scheme d.N) f t0 tf X U P r = 0) := by
  have ha : 0 < tScale d t0 tf := by rw [scale_eq]; exact scale_pos d hS h
  have hw : ∀ m ∈ Finset.range (d.N + 1), 0 < (scheme d.N).w m := fun m hm => by
    have := quadWeights_eq (N := d.N) ⟨m, Finset.mem_range.1 hm⟩
    show 0 < quadWeights d.N m
    rw [this]; exact Cheb.intWeights_pos hN _
  have n1 : ∀ k, 0 ≤ ∑ i ∈ Finset.range d.NX, collocateDynamics d (scheme d.N) f t0 tf X U P (k * d.NX + i) ^ 2 := fun k =>
    Finset.sum_nonneg fun i _ => sq_nonneg _
  have n2 : ∀ s, 0 ≤ ∑ m ∈ Finset.range (d.N + 1), (scheme d.N).w m * ∑ i ∈ Finset.range d.NX,
      collocateDynamics d (scheme d.N) f t0 tf X U P ((s * d.N + m) * d.NX + i) ^ 2 := fun s =>
    Finset.sum_nonneg fun m hm => mul_nonneg (hw m hm).le (n1 _)
  rw [soft_closed]
  refine ⟨Finset.sum_nonneg fun s _ => mul_nonneg ha.le (n2 s), ?_⟩
  rw [Finset.sum_eq_zero_iff_of_nonneg fun s _ => mul_nonneg ha.le (n2 s)]
  constructor
  · intro hz r hr
    obtain ⟨k, i, hk, hi, rfl⟩ := blk_split hr
    obtain ⟨s, j, hs, hj, hjs, rfl⟩ := node_split d hS hN hk
    have h1 := (mul_eq_zero.1 (hz s (Finset.mem_range.2 hs))).resolve_left ha.ne'
    rw [Finset.sum_eq_zero_iff_of_nonneg fun m hm => mul_nonneg (hw m hm).le (n1 _)] at h1
    have hjm : j ∈ Finset.range (d.N + 1) := Finset.mem_range.2 (by omega)
    have h2 := (mul_eq_zero.1 (h1 j hjm)).resolve_left (hw j hjm).ne'
    rw [Finset.sum_eq_zero_iff_of_nonneg fun i _ => sq_nonneg _] at h2
    exact pow_eq_zero_iff (two_ne_zero) |>.1 (h2 i (Finset.mem_range.2 hi))
  · intro hz s hs
    have : ∀ m ∈ Finset.range (d.N + 1), (scheme d.N).w m * ∑ i ∈ Finset.range d.NX,
        collocateDynamics d (scheme d.N) f t0 tf X U P ((s * d.N + m) * d.NX + i) ^ 2 = 0 := fun m hm => by
      rw [Finset.sum_eq_zero fun i hi => by
        rw [hz _ (xIdx_lt d (node_lt d (Finset.mem_range.1 hs) (by have := Finset.mem_range.1 hm; omega)) (Finset.mem_range.1 hi))]; ring, mul_zero]
    rw [Finset.sum_eq_zero this, mul_zero]

/-! ### C125, C126: segments with own nodes -/

namespace MS

/-- **C125.** What the callbacks see at node `l` of segment `s`: the state of this node, the control of the segment, the parameters. -/
theorem node_layout {K : Type} [Field K] (d : Dims) (X U P : ℕ → K) (s l : ℕ) (i : Fin d.M) :
    (i.val < d.NX → nodeXU d X U P s l i = X ((s * (d.N + 1) + l) * d.NX + i)) ∧
    (∀ j < d.NU, i.val = d.NX + j → nodeXU d X U P s l i = U (s * d.NU + j)) ∧
    (∀ j < d.NP, i.val = d.NX + d.NU + j → nodeXU d X U P s l i = P j) := by
  unfold nodeXU
  refine ⟨fun h => by rw [if_pos h, off_eq], fun j hj h => ?_, fun j hj h => ?_⟩
  · rw [if_neg (by omega), if_pos (by omega)]; congr 1; omega
  · rw [if_neg (by omega), if_neg (by omega)]; congr 1; omega

/-- **C125.** With segments that have their own nodes and one control each, the dynamics constraint vanishes iff on every segment the
polynomials through the state values satisfy the differential equation at all nodes, and the trajectory is continuous. -/
theorem dynamics_iff (d : Dims) (f : (Fin d.M → ℝ) → ℕ → ℝ) (X U P : ℕ → ℝ) (hS : 1 ≤ d.S) (hN : 1 ≤ d.N) {t0 tf : ℝ} (h : t0 < tf) :
    (∀ r < d.S * (d.N + 1) * d.NX + (d.S - 1) * d.NX, collocateDynamics d (scheme d.N) f t0 tf X U P r = 0) ↔
    (∀ s < d.S, ∀ i < d.NX, ∃ Q : ℝ[X], Q.natDegree ≤ d.N ∧
      (∀ l ≤ d.N, Q.eval (segTime d.S d.N t0 tf s l) = X ((s * (d.N + 1) + l) * d.NX + i)) ∧
      ∀ j ≤ d.N, Q.derivative.eval (segTime d.S d.N t0 tf s j) = f (nodeXU d X U P s j) i) ∧
    ∀ s, s + 1 < d.S → ∀ i < d.NX, X ((s * (d.N + 1) + d.N) * d.NX + i) = X ((s + 1) * (d.N + 1) * d.NX + i) := by
  have ha := scale_pos d hS h
  have key : ∀ s < d.S, ∀ i < d.NX, ∀ Q : ℝ[X], Q.natDegree ≤ d.N →
      (∀ l ≤ d.N, Q.eval (segTime d.S d.N t0 tf s l) = X ((s * (d.N + 1) + l) * d.NX + i)) → ∀ j ≤ d.N,
      collocateDynamics d (scheme d.N) f t0 tf X U P ((s * (d.N + 1) + j) * d.NX + i)
        = (tf - t0) / d.S / 2 * (Q.derivative.eval (segTime d.S d.N t0 tf s j) - f (nodeXU d X U P s j) i) := by
    intro s hs i hi Q hQ hv j hj
    rw [dynamics_closed d _ f t0 tf X U P hs hj hi,
      seg_exact hN ((tf - t0) / d.S / 2) (tf - s * ((tf - t0) / d.S) - (tf - t0) / d.S / 2) hQ
        (fun l hl => by rw [← segTime_eq, hv l hl]) hj, ← segTime_eq, scale_eq]
    ring
  constructor
  · intro hz
    refine ⟨fun s hs i hi => ?_, fun s hs i hi => ?_⟩
    · obtain ⟨Q, hQ, hv⟩ := seg_interp hN ha.ne' (tf - s * ((tf - t0) / d.S) - (tf - t0) / d.S / 2) fun l => X ((s * (d.N + 1) + l) * d.NX + i)
      have hv' : ∀ l ≤ d.N, Q.eval (segTime d.S d.N t0 tf s l) = X ((s * (d.N + 1) + l) * d.NX + i) := fun l hl => by
        rw [segTime_eq, ← hv l hl]
      refine ⟨Q, hQ, hv', fun j hj => ?_⟩
      have e := key s hs i hi Q hQ hv' j hj
      have hr : (s * (d.N + 1) + j) * d.NX + i < d.S * (d.N + 1) * d.NX := blk_le hi (blk_le (by omega) hs)
      rw [hz _ (by omega)] at e
      rcases mul_eq_zero.1 e.symm with e | e
      · exact absurd e ha.ne'
      · exact sub_eq_zero.1 e
    · have e := gap_closed d (scheme d.N) f t0 tf X U P hs hi
      have hr : s * d.NX + i < (d.S - 1) * d.NX := blk_le hi (by omega)
      rw [hz _ (by show d.S * (d.N + 1) * d.NX + _ < _; omega)] at e
      exact sub_eq_zero.1 e.symm
  · rintro ⟨hq, hg⟩ r hr
    rcases Nat.lt_or_ge r (d.S * (d.N + 1) * d.NX) with h1 | h1
    · obtain ⟨k, i, hk, hi, rfl⟩ := blk_split (n := d.NX) (m := d.S * (d.N + 1)) (by rw [Nat.mul_comm]; exact h1)
      obtain ⟨s, j, hs, hj, rfl⟩ := blk_split (n := d.N + 1) (m := d.S) (by rw [Nat.mul_comm]; exact hk)
      obtain ⟨Q, hQ, hv, hd⟩ := hq s hs i hi
      rw [key s hs i hi Q hQ hv j (by omega), hd j (by omega), sub_self, mul_zero]
    · obtain ⟨k, i, hk, hi, e⟩ := blk_split (n := d.NX) (m := d.S - 1) (r := r - d.S * (d.N + 1) * d.NX)
        (by rw [Nat.mul_comm d.NX (d.S - 1)]; omega)
      have e2 : r = xEnd d + (k * d.NX + i) := by show r = d.S * (d.N + 1) * d.NX + _; omega
      rw [e2, gap_closed d _ f t0 tf X U P (by omega) hi, hg k (by omega) i hi, sub_self]

/-- **C125.** The cost of this transcription is the integral of the running cost, if that is a polynomial of degree at most `N` on each
segment, plus the terminal cost. -/
theorem cost_integral (d : Dims) (l : (Fin d.M → ℝ) → ℝ) (mayer : Option ((ℕ → ℝ) → (ℕ → ℝ) → ℝ)) (X U P : ℕ → ℝ) (hS : 1 ≤ d.S) (hN : 1 ≤ d.N)
    {t0 tf : ℝ} (h : t0 < tf) (Q : ℕ → ℝ[X]) (hQ : ∀ s < d.S, (Q s).natDegree ≤ d.N)
    (hv : ∀ s < d.S, ∀ j ≤ d.N, (Q s).eval (segTime d.S d.N t0 tf s j) = l (nodeXU d X U P s j)) :
    collocateCost d (scheme d.N) mayer (some l) t0 tf X U P = (match mayer with | none => 0 | some m => m X P)
      + ∑ s ∈ Finset.range d.S, ∫ t in (segTime d.S d.N t0 tf s d.N)..(segTime d.S d.N t0 tf s 0), (Q s).eval t := by
  rw [cost_closed]
  refine congrArg₂ (· + ·) (by cases mayer <;> rfl) ?_
  refine Finset.sum_congr rfl fun s hs => ?_
  rw [← seg_integral d hS hN h s (hQ s (Finset.mem_range.1 hs))]
  congr 1
  refine Finset.sum_congr rfl fun j hj => ?_
  rw [hv s (Finset.mem_range.1 hs) j (by have := Finset.mem_range.1 hj; omega)]

/-- **C125 (negative).** If linear combinations `M x` of the states obey `d/dt (M x) = A (M x) + β(u, p)` with `A` invertible, every point
satisfying the dynamics constraint has `M x` constant over the whole horizon, and the controls of all segments hold that
equilibrium. -/
theorem modes_constant (d : Dims) (f : (Fin d.M → ℝ) → ℕ → ℝ) (X U P : ℕ → ℝ) (hS : 1 ≤ d.S) (hN : 1 ≤ d.N) {t0 tf : ℝ} (h : t0 < tf) {m : ℕ}
    (A : Matrix (Fin m) (Fin m) ℝ) (hA : A.det ≠ 0) (M : Fin m → ℕ → ℝ) (β : Fin m → (Fin d.M → ℝ) → ℝ)
    (hβ : ∀ c z z', (∀ i : Fin d.M, d.NX ≤ i.val → z i = z' i) → β c z = β c z')
    (hM : ∀ z c, ∑ i ∈ Finset.range d.NX, M c i * f z i
      = ∑ e, A c e * ∑ i ∈ Finset.range d.NX, M e i * (if hi : i < d.M then z ⟨i, hi⟩ else 0) + β c z)
    (hz : ∀ r < d.S * (d.N + 1) * d.NX + (d.S - 1) * d.NX, collocateDynamics d (scheme d.N) f t0 tf X U P r = 0)
    (s : ℕ) (hs : s < d.S) (l : ℕ) (hl : l ≤ d.N) (c : Fin m) :
    ∑ i ∈ Finset.range d.NX, M c i * X ((s * (d.N + 1) + l) * d.NX + i) = ∑ i ∈ Finset.range d.NX, M c i * X i ∧
    ∑ e, A c e * (∑ i ∈ Finset.range d.NX, M e i * X i) = - β c (nodeXU d X U P s l) := by
  have ha := scale_pos d hS h
  obtain ⟨hq, hg⟩ := (dynamics_iff d f X U P hS hN h).1 hz
  have seg : ∀ s < d.S, ∀ l ≤ d.N, (∀ c, ∑ i ∈ Finset.range d.NX, M c i * X ((s * (d.N + 1) + l) * d.NX + i)
      = ∑ i ∈ Finset.range d.NX, M c i * X ((s * (d.N + 1) + 0) * d.NX + i)) ∧
      ∀ c, ∑ e, A c e * (∑ i ∈ Finset.range d.NX, M e i * X ((s * (d.N + 1) + l) * d.NX + i)) = - β c (nodeXU d X U P s l) := by
    intro s hs l hl
    have hq' := hq s hs
    simp only [segTime_eq] at hq'
    choose! Q hQ hv hd using hq'
    have hb : ∀ l c, β c (nodeXU d X U P s l) = β c (nodeXU d X U P s 0) := fun l c => hβ c _ _ fun i hi => by
      have hi' : ¬ i.val < d.NX := by omega
      unfold nodeXU; rw [if_neg hi', if_neg hi']
    have key := seg_modes_values (n := d.NX) hN ha.ne' (tf - s * ((tf - t0) / d.S) - (tf - t0) / d.S / 2) A hA
      (fun c => β c (nodeXU d X U P s 0)) M Q hQ (fun l i => X ((s * (d.N + 1) + l) * d.NX + i)) _ hv hd ?_ l hl
    · exact ⟨key.1, fun c => by rw [hb]; exact key.2 c⟩
    · intro l hl c
      show ∑ i ∈ Finset.range d.NX, M c i * f _ i = _
      rw [hM, hb]
      congr 1
      refine Finset.sum_congr rfl fun e _ => ?_
      congr 1
      refine Finset.sum_congr rfl fun i hi => ?_
      have hi := Finset.mem_range.1 hi
      rw [dif_pos (by unfold Dims.M; omega)]
      unfold nodeXU
      rw [if_pos hi, off_eq]
  have first : ∀ s < d.S, ∀ c, ∑ i ∈ Finset.range d.NX, M c i * X ((s * (d.N + 1) + 0) * d.NX + i) = ∑ i ∈ Finset.range d.NX, M c i * X i := by
    intro s
    induction s with
    | zero => intro _ c; simp
    | succ s ih =>
      intro hs c
      rw [← ih (by omega) c, ← (seg s (by omega) d.N le_rfl).1 c]
      exact Finset.sum_congr rfl fun i hi => by rw [hg s hs i (Finset.mem_range.1 hi), Nat.add_zero]
  have all : ∀ c, ∑ i ∈ Finset.range d.NX, M c i * X ((s * (d.N + 1) + l) * d.NX + i) = ∑ i ∈ Finset.range d.NX, M c i * X i :=
    fun c => ((seg s hs l hl).1 c).trans (first s hs c)
  refine ⟨all c, ?_⟩
  rw [← (seg s hs l hl).2 c]
  exact Finset.sum_congr rfl fun e _ => by rw [all e]

variable {K : Type} [Field K]

/-- **C126 (negative).** The index range that the class publishes for the parameters has the length of the data, not of the
parameters. -/
theorem parameter_range (d : Dims) (ND : ℕ) : pStart d = d.S * (d.N + 1) * d.NX + d.S * d.NU ∧ pEnd d ND - pStart d = ND ∧
    (pEnd d ND = d.S * (d.N + 1) * d.NX + d.S * d.NU + d.NP ↔ ND = d.NP) := by
  have e : pStart d = d.S * (d.N + 1) * d.NX + d.S * d.NU := rfl
  unfold pEnd
  omega

/-- **C126.** Values of functions: of a function of the state at every node, of a function without the state once per segment. -/
theorem function_layout (d : Dims) (ND : ℕ) (g : Fn d K) (X U P : ℕ → K) (hin : g.nIn = (if d.NP = 0 ∧ ND = 0 then 2 else 4)) :
    (∃ F, collocateFunction d ND g true X U P = some (d.S * (d.N + 1) * g.n, F) ∧
      ∀ s < d.S, ∀ l ≤ d.N, ∀ i < g.n, F ((s * (d.N + 1) + l) * g.n + i) = g.val (nodeXU d X U P s l) i) ∧
    ((∀ z z', (∀ i : Fin d.M, d.NX ≤ i.val → z i = z' i) → g.val z = g.val z') →
      ∃ F, collocateFunction d ND g false X U P = some (d.S * g.n, F) ∧
        ∀ s < d.S, ∀ l ≤ d.N, ∀ i < g.n, F (s * g.n + i) = g.val (nodeXU d X U P s l) i) := by
  have hn : ¬ (g.nIn ≠ nArgs d ND) := not_not.2 hin
  unfold collocateFunction
  rw [if_neg hn, if_neg hn]
  refine ⟨⟨_, rfl, fun s hs l hl i hi => ?_⟩, fun hdep => ⟨_, rfl, fun s hs l hl i hi => ?_⟩⟩
  · rw [segLoop2 g.n d.N d.S (fun a b => g.val (nodeXU d X U P a b)) _ hl hi, if_pos hs]
  · rw [segLoop g.n d.S (fun j => g.val fun a =>
      if a.val < d.NX then X a else if a.val < d.NX + d.NU then U (j * d.NU + (a - d.NX)) else P (a - d.NX - d.NU)) _ hi, if_pos hs]
    refine congrFun (hdep _ _ fun a ha => ?_) i
    have ha' : ¬ a.val < d.NX := by omega
    unfold nodeXU
    rw [if_neg ha', if_neg ha']

/-- **C126 (negative).** The derivative of a function without the state does not depend on the function: it is the difference of the
controls of neighbouring segments, not divided by a time, and the segment closer to the initial time comes with the positive sign.
Orders other than one throw. -/
theorem differentiate_ignores_function (d : Dims) (ND : ℕ) (A : Approx K) (g : Fn d K) (X U P : ℕ → K)
    (hin : g.nIn = (if d.NP = 0 ∧ ND = 0 then 2 else 4)) (order : ℕ) :
    (order ≠ 1 → differentiateFunction d ND A g false order X U P = none) ∧
    ∃ V, differentiateFunction d ND A g false 1 X U P = some ((d.S - 1) * d.NU, V) ∧
      ∀ k, k + 1 < d.S → ∀ i < d.NU, V (k * d.NU + i) = U ((k + 1) * d.NU + i) - U (k * d.NU + i) := by
  have hn : ¬ (g.nIn ≠ nArgs d ND) := not_not.2 hin
  unfold differentiateFunction collocateFunction
  rw [if_neg hn]
  refine ⟨fun ho => ?_, ⟨_, rfl, fun k hk i hi => ?_⟩⟩
  · show (if order ≠ 1 then none else _) = none
    rw [if_pos ho]
  · rw [segLoop d.NU (d.S - 1) (fun j a => U ((j + 1) * d.NU + a) - U (j * d.NU + a)) _ hi, if_pos (by omega)]

end MS

/-! ### Examples -/

section Examples

/-- One state, one control, two segments of degree one. -/
def exD : Dims := ⟨1, 1, 0, 0, 2, 1⟩

theorem exTimes : segTime 2 1 0 2 0 0 = 2 ∧ segTime 2 1 0 2 0 1 = 1 ∧ segTime 2 1 0 2 1 0 = 1 ∧ segTime 2 1 0 2 1 1 = 0 := by
  unfold segTime; norm_num

theorem exQ (P : ℕ → ℕ → Prop) (h : P 0 0 ∧ P 0 1 ∧ P 1 0 ∧ P 1 1) : ∀ s < 2, ∀ l ≤ 1, P s l := by
  intro s hs l hl
  interval_cases s <;> interval_cases l
  · exact h.1
  · exact h.2.1
  · exact h.2.2.1
  · exact h.2.2.2

/-- C118, C124: `x' = u` with `u = 1`, `x(t) = t` on `[0, 2]` satisfies the dynamics constraint and has no soft penalty; with `u = 0` it
does not and the soft penalty is positive. -/
example : (∀ r < exD.VARX, collocateDynamics exD (scheme 1) (fun z i => z ⟨1, Nat.one_lt_two⟩) 0 2 (fun k => 2 - k) (fun _ => 1) (fun _ => 0) r = 0) ∧
    softDynamics exD (scheme 1) (fun z i => z ⟨1, Nat.one_lt_two⟩) 0 2 (fun k => 2 - k) (fun _ => 1) (fun _ => 0) = 0 ∧
    0 < softDynamics exD (scheme 1) (fun z i => z ⟨1, Nat.one_lt_two⟩) 0 2 (fun k => 2 - k) (fun _ => 0) (fun _ => 0) := by
  obtain ⟨e1, e2, e3, e4⟩ := exTimes
  have h1 : ∀ r < exD.VARX, collocateDynamics exD (scheme 1) (fun z i => z ⟨1, Nat.one_lt_two⟩) 0 2 (fun k => 2 - k) (fun _ => 1) (fun _ => 0) r = 0 := by
    refine (dynamics_iff exD (fun z i => z ⟨1, Nat.one_lt_two⟩) _ _ _ (by decide) (by decide) (by norm_num)).2 fun s hs i hi => ⟨X, by simp [exD], ?_, ?_⟩
    · have hi : i = 0 := by have : i < 1 := hi; omega
      subst hi
      intro l hl
      refine exQ (fun s l => eval (segTime 2 1 0 2 s l) X = 2 - (((s * 1 + l) * 1 + 0 : ℕ) : ℝ)) ?_ s hs l hl
      rw [e1, e2, e3, e4]; norm_num
    · intro j hj hjs
      rw [derivative_X, eval_one]
      rfl
  have key := soft_zero_iff exD (fun z i => z ⟨1, Nat.one_lt_two⟩) (fun k => 2 - k) (fun _ => 1) (fun _ => 0) (by decide) (by decide) (show (0 : ℝ) < 2 by norm_num)
  have key2 := soft_zero_iff exD (fun z i => z ⟨1, Nat.one_lt_two⟩) (fun k => 2 - k) (fun _ => 0) (fun _ => 0) (by decide) (by decide) (show (0 : ℝ) < 2 by norm_num)
  refine ⟨h1, key.2.2 h1, lt_of_le_of_ne key2.1 fun h => ?_⟩
  obtain ⟨Q, hQ, hv, hd⟩ := (dynamics_iff exD (fun z i => z ⟨1, Nat.one_lt_two⟩) _ _ _ (by decide) (by decide) (by norm_num)).1 (key2.2.1 h.symm) 0 (by decide) 0 (by decide)
  have hd0 : Q.derivative.eval 2 = 0 := by
    have := hd 0 (by decide) (by decide)
    rw [show segTime exD.S exD.N 0 2 0 0 = 2 from e1] at this
    exact this
  have v0 := hv 0 (by decide)
  have v1 := hv 1 (by decide)
  rw [show segTime exD.S exD.N 0 2 0 0 = 2 from e1] at v0
  rw [show segTime exD.S exD.N 0 2 0 1 = 1 from e2] at v1
  have hlin : Q = C (Q.coeff 1) * X + C (Q.coeff 0) := eq_X_add_C_of_natDegree_le_one hQ
  rw [hlin] at v0 v1 hd0
  simp [exD] at v0 v1 hd0
  rw [hd0] at v0 v1
  linarith

/-- C123: the stable scalar system `x' = -x` without input: with initial state one neither transcription has a feasible point, whatever
the number of segments and the degree. -/
example (S N : ℕ) (hS : 1 ≤ S) (hN : 1 ≤ N) (X U P : ℕ → ℝ) (h0 : X (S * N) = 1) :
    ¬ ∀ r < (⟨1, 1, 0, 0, S, N⟩ : Dims).VARX, collocateDynamics ⟨1, 1, 0, 0, S, N⟩ (scheme N) (fun z _ => - z ⟨0, Nat.zero_lt_two⟩) 0 1 X U P r = 0 := by
  intro hz
  have := cas_modes ⟨1, 1, 0, 0, S, N⟩ (fun z _ => - z ⟨0, Nat.zero_lt_two⟩) X U P hS hN (show (0 : ℝ) < 1 by norm_num) (m := 1) (-1)
    (by simp) (fun _ _ => 1) (fun z c => by
      show ∑ i ∈ Finset.range 1, (1 : ℝ) * - z ⟨0, Nat.zero_lt_two⟩ = ∑ e : Fin 1, (-1 : Matrix (Fin 1) (Fin 1) ℝ) c e * ∑ i ∈ Finset.range 1, (1 : ℝ) *
        (if hi : i < 2 then z ⟨i, hi⟩ else 0)
      have : c = 0 := Subsingleton.elim _ _
      subst this
      simp) hz 0 N le_rfl
  have e : (S - 1) * N + N = S * N := by
    conv_rhs => rw [show S = S - 1 + 1 by omega, Nat.add_mul, Nat.one_mul]
  simp only [Finset.sum_range_one, one_mul, e, mul_one, add_zero, h0] at this
  exact one_ne_zero this

example (S N : ℕ) (hS : 1 ≤ S) (hN : 1 ≤ N) (cb : Cbs ⟨1, 1, 0, 0, S, N⟩ ℝ) (hcb : ∀ z t old i, cb.dyn z t old i = - z ⟨0, Nat.zero_lt_two⟩)
    (o : Obj ⟨1, 1, 0, 0, S, N⟩ ℝ) (junk : ℕ → ℕ → ℝ) (var c0 : ℕ → ℝ) (h0 : var (S * N) = 1) :
    ¬ ∀ r < (⟨1, 1, 0, 0, S, N⟩ : Dims).NEQ, constraints ⟨1, 1, 0, 0, S, N⟩ (chebApprox N) cb
      (setTimeLimits ⟨1, 1, 0, 0, S, N⟩ (chebApprox N) o 0 1) junk var c0 r = 0 := by
  intro hz
  have := ocp_modes ⟨1, 1, 0, 0, S, N⟩ cb o junk var c0 hS hN (fun z t old old' i _ => by rw [hcb, hcb]) (show (0 : ℝ) < 1 by norm_num) (m := 1) (-1)
    (by simp) (fun _ _ => 1) (fun z t old c => by
      simp only [hcb]
      show ∑ i ∈ Finset.range 1, (1 : ℝ) * - z ⟨0, Nat.zero_lt_two⟩ = ∑ e : Fin 1, (-1 : Matrix (Fin 1) (Fin 1) ℝ) c e * ∑ i ∈ Finset.range 1, (1 : ℝ) *
        (if hi : i < 2 then z ⟨i, hi⟩ else 0)
      have : c = 0 := Subsingleton.elim _ _
      subst this
      simp) hz 0 N le_rfl
  have e : (S - 1) * N + N = S * N := by
    conv_rhs => rw [show S = S - 1 + 1 by omega, Nat.add_mul, Nat.one_mul]
  simp only [Finset.sum_range_one, one_mul, e, mul_one, add_zero, h0] at this
  exact one_ne_zero this

/-- C125: `x' = -x + u`: no feasible point steers one to zero. -/
example (S N : ℕ) (hS : 1 ≤ S) (hN : 1 ≤ N) (X U P : ℕ → ℝ) (h0 : X ((S - 1) * (N + 1) + N) = 1) (h1 : X 0 = 0) :
    ¬ ∀ r < S * (N + 1) * 1 + (S - 1) * 1, MS.collocateDynamics ⟨1, 1, 0, 0, S, N⟩ (scheme N) (fun z _ => - z ⟨0, Nat.zero_lt_two⟩ + z ⟨1, Nat.one_lt_two⟩) 0 1 X U P r = 0 := by
  intro hz
  have := (MS.modes_constant ⟨1, 1, 0, 0, S, N⟩ (fun z _ => - z ⟨0, Nat.zero_lt_two⟩ + z ⟨1, Nat.one_lt_two⟩) X U P hS hN (show (0 : ℝ) < 1 by norm_num) (m := 1) (-1)
    (by simp) (fun _ _ => 1) (fun _ z => z ⟨1, Nat.one_lt_two⟩) (fun c z z' hz => hz ⟨1, Nat.one_lt_two⟩ (by show 1 ≤ 1; omega)) (fun z c => by
      show ∑ i ∈ Finset.range 1, (1 : ℝ) * (- z ⟨0, Nat.zero_lt_two⟩ + z ⟨1, Nat.one_lt_two⟩) = ∑ e : Fin 1, (-1 : Matrix (Fin 1) (Fin 1) ℝ) c e * ∑ i ∈ Finset.range 1, (1 : ℝ) *
        (if hi : i < 2 then z ⟨i, hi⟩ else 0) + z ⟨1, Nat.one_lt_two⟩
      have : c = 0 := Subsingleton.elim _ _
      subst this
      simp) hz (S - 1) (by show S - 1 < S; omega) N le_rfl 0).1
  simp only [Finset.sum_range_one, one_mul, mul_one, add_zero, h0, h1] at this
  exact one_ne_zero this

/-- C120: the cost of states `(1, 2)` against the data `(1, 2)` is not zero. -/
example : collocateIdCost (K := ℚ) ⟨1, 1, 0, 0, 1, 1⟩ ⟨fun _ _ => 0, fun _ => 0, fun _ => 1⟩ (fun x y => (x 0 - y 0) ^ 2) 1 2 (fun k => k + 1) 0 2
    (fun k => k + 1) = some 5 := by decide +kernel

/-- C121: the value of the function object at `X = 0` is not the residual of `X = 0`. -/
example : collocateDynamics2 (K := ℚ) ⟨1, 1, 0, 0, 1, 1⟩ ⟨fun _ j => if j = 0 then 1 / 2 else - 1 / 2, fun _ => 0, fun _ => 1⟩ (fun _ _ => 0) 0 2
      (fun k => k) (fun _ => 0) (fun _ => 0) (fun _ => 0) 0 = - 1 / 2 ∧
    collocateDynamics (K := ℚ) ⟨1, 1, 0, 0, 1, 1⟩ ⟨fun _ j => if j = 0 then 1 / 2 else - 1 / 2, fun _ => 0, fun _ => 1⟩ (fun _ _ => 0) 0 2
      (fun _ => 0) (fun _ => 0) (fun _ => 0) 0 = 0 := by decide +kernel

theorem exD01 : (scheme 1).D 0 1 = - 1 / 2 := by
  show diffMatrix 1 0 1 = _
  unfold diffMatrix Dn cVec points
  norm_num

/-- C122: a function that is linear on both segments, with a kink: the second derivative comes out as `1/4`. -/
example : ∃ W, differentiateFunction exD 0 (scheme 1) ⟨2, 1, fun z _ => z ⟨0, Nat.zero_lt_two⟩⟩ 2 (fun k => if k = 2 then 1 else 0) (fun _ => 0) (fun _ => 0) = some W ∧
    W 0 = 1 / 4 := by
  obtain ⟨e1, e2, e3, e4⟩ := exTimes
  obtain ⟨V, W, -, hW, -, h2⟩ := differentiate_piecewise exD 0 ⟨2, 1, fun z _ => z ⟨0, Nat.zero_lt_two⟩⟩ (fun k => if k = 2 then 1 else 0) (fun _ => 0) (fun _ => 0)
    (by decide) (by decide) (t0 := 0) (tf := 2) rfl (fun s _ => if s = 0 then 0 else 1 - X) (by
      intro s _ i _
      by_cases hs : s = 0
      · rw [if_pos hs]; simp
      · rw [if_neg hs]
        show (1 - X : ℝ[X]).natDegree ≤ 1
        compute_degree)
    (by
      intro s hs l hl i hi
      refine exQ (fun s l => (if (s * 1 + l) * 1 + 0 = 2 then (1 : ℝ) else 0) = eval (segTime 2 1 0 2 s l) (if s = 0 then 0 else 1 - X)) ?_ s hs l hl
      rw [e1, e2, e3, e4]; norm_num)
  refine ⟨W, hW, ?_⟩
  have := h2 0 (by decide) 0 (by decide) 0 (by decide)
  have hD : (scheme exD.N).D 0 exD.N = - 1 / 2 := exD01
  rw [hD] at this
  simp [exD] at this
  rw [this]; norm_num

/-- C126: the derivative of `u^2` for the controls `1, 3` comes out as `2`. -/
example : (MS.differentiateFunction (K := ℚ) exD 0 ⟨fun _ _ => 0, fun _ => 0, fun _ => 1⟩ ⟨2, 1, fun z _ => z ⟨1, Nat.one_lt_two⟩ * z ⟨1, Nat.one_lt_two⟩⟩ false 1 (fun _ => 0)
    (fun k => 2 * k + 1) (fun _ => 0)).map (fun r => (r.1, r.2 0)) = some (1, 2) := by decide +kernel

end Examples

end PolyMPC.CasCheb
