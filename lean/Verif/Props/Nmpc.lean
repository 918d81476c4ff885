import Verif.Model.Nmpc
import Verif.Spec.Nmpc
import Verif.Props.GenericOcp

/-! # The tracking controller `nmpc`: what its program means -/

namespace PolyMPC.Nmpc
open Ocp CasCheb GenOcp Spec Polynomial

set_option linter.unusedSectionVars false

section Field
variable {K : Type} [Field K]

theorem part_idem (n : ℕ) (v : ℕ → K) (a : ℕ) : cut n (part n v a) = part n v a := by
  funext i; unfold cut part
  by_cases h : i < n
  · rw [if_pos h]
  · rw [if_neg h, if_neg h]

theorem app_lin {A : Mat K} {m : ℕ} (h : A.n = m) (v : ℕ → K) : A.app m v = lin m A.a v := by
  funext i; unfold Mat.app lin; rw [if_pos h]

theorem lin_congr {n : ℕ} (M : ℕ → ℕ → K) {v w : ℕ → K} (h : ∀ i < n, v i = w i) : lin n M v = lin n M w := by
  funext i; unfold lin
  by_cases hi : i < n
  · rw [if_pos hi, if_pos hi]
    exact Finset.sum_congr rfl fun j hj => by rw [h j (Finset.mem_range.1 hj)]
  · rw [if_neg hi, if_neg hi]

theorem lin_part (n : ℕ) (M : ℕ → ℕ → K) (v : ℕ → K) : lin n M v = lin n M (part n v 0) :=
  lin_congr M fun i hi => by unfold part; rw [if_pos hi, Nat.zero_add]

/-- A left inverse recovers the vector. -/
theorem lin_inv {n : ℕ} {S T : ℕ → ℕ → K} (h : ∀ i < n, ∀ j < n, ∑ k ∈ Finset.range n, T i k * S k j = if i = j then 1 else 0) (v : ℕ → K) :
    lin n T (lin n S v) = part n v 0 := by
  funext i
  unfold lin part
  by_cases hi : i < n
  · rw [if_pos hi, if_pos hi, Nat.zero_add]
    have e : ∀ k ∈ Finset.range n, T i k * (if k < n then ∑ j ∈ Finset.range n, S k j * v j else 0)
        = ∑ j ∈ Finset.range n, T i k * S k j * v j := fun k hk => by
      rw [if_pos (Finset.mem_range.1 hk), Finset.mul_sum]
      exact Finset.sum_congr rfl fun j _ => (mul_assoc _ _ _).symm
    rw [Finset.sum_congr rfl e, Finset.sum_comm, Finset.sum_eq_single i]
    · rw [← Finset.sum_mul, h i hi i hi, if_pos rfl, one_mul]
    · intro j hj hne
      rw [← Finset.sum_mul, h i hi j (Finset.mem_range.1 hj), if_neg hne.symm, zero_mul]
    · intro hn; exact absurd (Finset.mem_range.2 hi) hn
  · rw [if_neg hi, if_neg hi]

theorem nlp_ok {d : Dims} {A : Approx K} {sys : Sys K} {o : Opts K} {ref : ℕ → K} {tf : K} {var : ℕ → K} {p : Nlp K}
    (h : nlp d A sys o ref tf var = some p) : p.nVar = d.VARX + d.VARU ∧ p.n = d.VARX - d.NX ∧
      p.f = collocateCost d A (some (mayer d sys o ref)) (some (lagrange d sys o ref)) 0 tf var (fun i => var (d.VARX + i)) (fun _ => 0) ∧
      p.g = collocateDynamics d A (ode d sys o) 0 tf var (fun i => var (d.VARX + i)) fun _ => 0 := by
  unfold nlp at h
  by_cases hs : sizesOk d sys o = true
  · rw [if_pos hs] at h
    cases h
    exact ⟨rfl, rfl, rfl, rfl⟩
  · rw [if_neg hs] at h; cases h

/-! ### C136: when the controller can be built -/

theorem eye_fits (n m : ℕ) : (eye n : Mat K).fits m = true ↔ n = m ∨ n = 1 := by
  unfold Mat.fits eye
  simp

theorem fits_of {A : Mat K} {m : ℕ} (h : A.n = m) : A.fits m = true := by
  unfold Mat.fits; rw [h]; simp

theorem off_SX {sys : Sys K} {o : Opts K} (h : o.scaling.getD false = false) : initSX sys o = (eye sys.ny, eye sys.ny) := by
  unfold initSX Opts.scale; rw [h]; rfl

theorem off_SU {d : Dims} {o : Opts K} (h : o.scaling.getD false = false) : initSU d o = (eye d.NU, eye d.NU) := by
  unfold initSU Opts.scale; rw [h]; rfl

theorem sizes_off {d : Dims} {sys : Sys K} {o : Opts K} (h : o.scaling.getD false = false) :
    sizesOk d sys o = true ↔ sys.ny = d.NX ∨ sys.ny = 1 := by
  unfold sizesOk
  rw [off_SX h, off_SU h]
  have h' : o.scale = false := h
  rw [h']
  simp only [Bool.not_false, Bool.true_or, Bool.and_true, Bool.and_eq_true, eye_fits, true_or, and_true]

/-- **C136.** Without scaling the controller can be built only if the system has as many outputs as states, or a single output: the default
state scaling is an identity matrix with as many rows as there are outputs. With scaling it can be built for any number of outputs if a matrix is given
for the states, and if none is given only if there are as many outputs as states. -/
theorem needs_square_output (d : Dims) (A : Approx K) (sys : Sys K) (o : Opts K) (ref : ℕ → K) (tf : K) (var : ℕ → K) (hx : 1 ≤ d.NX) :
    (construct d sys o = none ↔ nlp d A sys o ref tf var = none) ∧
    (o.scaling.getD false = false → (construct d sys o = none ↔ sys.ny ≠ d.NX ∧ sys.ny ≠ 1)) ∧
    (o.scaling = some true → o.scaleU = none → o.scaleX = none → (construct d sys o = none ↔ sys.ny ≠ d.NX)) ∧
    (o.scaling = some true → o.scaleU = none → ∀ S T, S.n = d.NX → T.n = d.NX → o.scaleX = some (S, T) → construct d sys o ≠ none) := by
  have hc : construct d sys o = none ↔ ¬ sizesOk d sys o = true := by
    unfold construct
    by_cases h : sizesOk d sys o = true
    · rw [if_pos h]; simp [h]
    · rw [if_neg h]; simp [h]
  have hn : nlp d A sys o ref tf var = none ↔ ¬ sizesOk d sys o = true := by
    unfold nlp
    by_cases h : sizesOk d sys o = true
    · rw [if_pos h]; simp [h]
    · rw [if_neg h]; simp [h]
  refine ⟨hc.trans hn.symm, fun h => ?_, fun h hu hs => ?_, fun h hu S T hS hT hs => ?_⟩
  · rw [hc, sizes_off h, not_or]
  · have e : o.scale = true := by unfold Opts.scale; rw [h]; rfl
    have e1 : initSX sys o = (eye sys.ny, eye sys.ny) := by unfold initSX; rw [e, hs]; rfl
    have e2 : initSU d o = (eye d.NU, eye d.NU) := by unfold initSU; rw [e, hu]; rfl
    rw [hc]
    unfold sizesOk
    rw [e1, e2, e]
    simp only [Bool.not_true, Bool.false_or, Bool.and_eq_true, eye_fits, decide_eq_true_eq]
    show ¬ (((sys.ny = d.NX ∨ sys.ny = 1) ∧ (True ∨ d.NU = 1)) ∧ ((sys.ny = d.NX ∨ sys.ny = 1) ∧ (True ∨ d.NU = 1)) ∧ d.NX ≤ sys.ny) ↔ _
    constructor
    · intro hn he
      exact hn ⟨⟨Or.inl he, Or.inl trivial⟩, ⟨Or.inl he, Or.inl trivial⟩, he.ge⟩
    · rintro hne ⟨⟨h1, -⟩, -, h2⟩
      rcases h1 with h1 | h1
      · exact hne h1
      · exact hne (by omega)
  · have e : o.scale = true := by unfold Opts.scale; rw [h]; rfl
    have e1 : initSX sys o = (S, T) := by unfold initSX; rw [e, hs]; rfl
    have e2 : initSU d o = (eye d.NU, eye d.NU) := by unfold initSU; rw [e, hu]; rfl
    rw [Ne, hc, not_not]
    unfold sizesOk
    rw [e1, e2, e]
    simp only [Bool.not_true, Bool.false_or, Bool.and_eq_true, eye_fits, decide_eq_true_eq]
    exact ⟨⟨fits_of hS, Or.inl trivial⟩, ⟨fits_of hT, Or.inl trivial⟩, hT.ge⟩

/-! ### C137: the weights -/

/-- **C137.** The cost of a weight is a sum of squares with the column sums as coefficients: it is the quadratic form for diagonal weights only. -/
theorem weight_columns (n : ℕ) (W : ℕ → ℕ → K) (r : ℕ → K) :
    wsum n W r = ∑ j ∈ Finset.range n, (∑ i ∈ Finset.range n, W i j) * r j ^ 2 ∧
    ((∀ i < n, ∀ j < n, i ≠ j → W i j = 0) → wsum n W r = quadForm n W r) := by
  have h1 : wsum n W r = ∑ j ∈ Finset.range n, (∑ i ∈ Finset.range n, W i j) * r j ^ 2 := by
    unfold wsum
    rw [Finset.sum_comm]
    exact Finset.sum_congr rfl fun j _ => (Finset.sum_mul _ _ _).symm
  refine ⟨h1, fun h => ?_⟩
  unfold wsum quadForm
  refine Finset.sum_congr rfl fun i hi => Finset.sum_congr rfl fun j hj => ?_
  by_cases hij : i = j
  · subst hij; ring
  · rw [h i (Finset.mem_range.1 hi) j (Finset.mem_range.1 hj) hij]; ring

/-- **C137.** Without a weight option the cost is the sum of the squares. -/
theorem weight_default (n : ℕ) (r : ℕ → K) : wsum n (weight none) r = ∑ j ∈ Finset.range n, r j ^ 2 := by
  rw [(weight_columns n _ r).1]
  refine Finset.sum_congr rfl fun j hj => ?_
  have : ∑ i ∈ Finset.range n, weight (none : Option (ℕ → ℕ → K)) i j = 1 := by
    show ∑ i ∈ Finset.range n, (if i = j then (1 : K) else 0) = 1
    rw [Finset.sum_ite_eq' _ _ _, if_pos hj]
  rw [this, one_mul]

end Field

/-- **C137.** A weight with a negative column sum makes the cost unbounded below, also if the weight is positive definite. -/
theorem weight_unbounded {n : ℕ} {W : ℕ → ℕ → ℝ} {c : ℕ} (hc : c < n) (hneg : ∑ i ∈ Finset.range n, W i c < 0) (B : ℝ) :
    ∃ r : ℕ → ℝ, wsum n W r < B := by
  obtain ⟨t, ht⟩ : ∃ t : ℝ, (∑ i ∈ Finset.range n, W i c) * t ^ 2 < B := by
    set a := ∑ i ∈ Finset.range n, W i c with ha
    refine ⟨(|B| + 1) * (1 + 1 / |a|), ?_⟩
    have hp : 0 < |a| := abs_pos.2 hneg.ne
    have haa : a = -|a| := by rw [abs_of_neg hneg, neg_neg]
    have hB := abs_nonneg B
    have h1 : |B| + 1 ≤ |a| * ((|B| + 1) * (1 + 1 / |a|)) ^ 2 := by
      have : |a| * ((|B| + 1) * (1 + 1 / |a|)) ^ 2 = (|B| + 1) ^ 2 * (|a| + 2 + 1 / |a|) := by field_simp; ring
      rw [this]
      have h2 : 2 ≤ |a| + 2 + 1 / |a| := by have : 0 < 1 / |a| := by positivity
                                            linarith
      nlinarith
    rw [haa]
    rw [abs_neg, abs_abs]
    have := neg_abs_le B
    nlinarith
  refine ⟨fun j => if j = c then t else 0, ?_⟩
  rw [(weight_columns n W _).1, Finset.sum_eq_single c]
  · rw [if_pos rfl]; exact ht
  · intro j _ hj; rw [if_neg hj]; ring
  · intro h; exact absurd (Finset.mem_range.2 hc) h

/-- The weight `[[1, -2], [-2, 5]]` is positive definite and has a negative column sum. -/
def badW : ℕ → ℕ → ℝ := fun i j => if i = 0 ∧ j = 0 then 1 else if i = 1 ∧ j = 1 then 5 else -2

example : (∀ r : ℕ → ℝ, r 0 ≠ 0 ∨ r 1 ≠ 0 → 0 < quadForm 2 badW r) ∧ ∃ r, wsum 2 badW r < -1000 := by
  refine ⟨fun r h => ?_, weight_unbounded (c := 0) (by norm_num) (by simp [Finset.sum_range_succ, badW]) _⟩
  have e : quadForm 2 badW r = (r 0 - 2 * r 1) ^ 2 + r 1 ^ 2 := by
    simp [quadForm, Finset.sum_range_succ, badW]; ring
  rw [e]
  by_cases h1 : r 1 = 0
  · have h0 : r 0 ≠ 0 := h.resolve_right (fun e => e h1)
    rw [h1]; have := sq_pos_of_ne_zero h0; nlinarith
  · have := sq_pos_of_ne_zero h1; positivity

/-! ### C138: what a feasible point is -/

/-- A row of the transcription, in terms of the interpolating polynomial. -/
theorem row_key (d : Dims) (f : (Fin d.M → ℝ) → ℕ → ℝ) (X U P : ℕ → ℝ) (hN : 1 ≤ d.N) (t0 tf : ℝ) {s i : ℕ} (hs : s < d.S) (hi : i < d.NX) {Q : ℝ[X]}
    (hQ : Q.natDegree ≤ d.N) (hv : ∀ l ≤ d.N, Q.eval (segTime d.S d.N t0 tf s l) = X ((s * d.N + l) * d.NX + i)) {j : ℕ} (hj : j ≤ d.N)
    (hjs : j < d.N ∨ s + 1 = d.S) :
    collocateDynamics d (scheme d.N) f t0 tf X U P ((s * d.N + j) * d.NX + i)
      = (tf - t0) / d.S / 2 * (Q.derivative.eval (segTime d.S d.N t0 tf s j) - f (nodeXU d X U P (s * d.N + j)) i) := by
  rw [dynamics_closed d _ f t0 tf X U P hs hj hjs hi,
    seg_exact hN ((tf - t0) / d.S / 2) (tf - s * ((tf - t0) / d.S) - (tf - t0) / d.S / 2) hQ
      (fun l hl => by rw [← segTime_eq, hv l hl]) hj, ← segTime_eq, scale_eq]
  ring

/-- Rows but the last `NX`: a segment and a node that is not its earliest. -/
theorem row_split {d : Dims} (hN : 1 ≤ d.N) {r : ℕ} (hr : r < d.VARX - d.NX) :
    ∃ s j i, s < d.S ∧ j < d.N ∧ i < d.NX ∧ r = (s * d.N + j) * d.NX + i := by
  have hr' : r < d.S * d.N * d.NX := by
    unfold Dims.VARX Dims.NN at hr
    rw [Nat.mul_add, Nat.mul_one, Nat.add_sub_cancel, Nat.mul_comm] at hr
    exact hr
  have hx : 0 < d.NX := by rcases Nat.eq_zero_or_pos d.NX with h | h; · rw [h] at hr'; omega
                           exact h
  have h1 : r / d.NX < d.S * d.N := (Nat.div_lt_iff_lt_mul hx).2 hr'
  refine ⟨r / d.NX / d.N, r / d.NX % d.N, r % d.NX, (Nat.div_lt_iff_lt_mul (by omega)).2 h1, Nat.mod_lt _ (by omega), Nat.mod_lt _ hx, ?_⟩
  rw [Nat.div_add_mod', Nat.div_add_mod']

theorem row_lt {d : Dims} {s j i : ℕ} (hs : s < d.S) (hj : j < d.N) (hi : i < d.NX) : (s * d.N + j) * d.NX + i < d.VARX - d.NX := by
  have e : d.VARX - d.NX = d.S * d.N * d.NX := by
    unfold Dims.VARX Dims.NN
    rw [Nat.mul_add, Nat.mul_one, Nat.add_sub_cancel, Nat.mul_comm]
  rw [e]
  exact blk_le hi (blk_le hj hs)

/-- Rows of the program: the collocation conditions at all nodes but the first instant. -/
theorem rows_iff (d : Dims) (f : (Fin d.M → ℝ) → ℕ → ℝ) (X U P : ℕ → ℝ) (hS : 1 ≤ d.S) (hN : 1 ≤ d.N) {t0 tf : ℝ} (h : t0 < tf) :
    (∀ r < d.VARX - d.NX, collocateDynamics d (scheme d.N) f t0 tf X U P r = 0) ↔
    ∀ s < d.S, ∀ i < d.NX, ∃ Q : ℝ[X], Q.natDegree ≤ d.N ∧
      (∀ l ≤ d.N, Q.eval (segTime d.S d.N t0 tf s l) = X ((s * d.N + l) * d.NX + i)) ∧
      ∀ j < d.N, Q.derivative.eval (segTime d.S d.N t0 tf s j) = f (nodeXU d X U P (s * d.N + j)) i := by
  have ha := scale_pos d hS h
  constructor
  · intro hz s hs i hi
    obtain ⟨Q, hQ, hv⟩ := seg_interp hN ha.ne' (tf - s * ((tf - t0) / d.S) - (tf - t0) / d.S / 2) fun l => X ((s * d.N + l) * d.NX + i)
    have hv' : ∀ l ≤ d.N, Q.eval (segTime d.S d.N t0 tf s l) = X ((s * d.N + l) * d.NX + i) := fun l hl => by
      rw [segTime_eq, ← hv l hl]
    refine ⟨Q, hQ, hv', fun j hj => ?_⟩
    have e := row_key d f X U P hN t0 tf hs hi hQ hv' hj.le (Or.inl hj)
    rw [hz _ (row_lt hs hj hi)] at e
    rcases mul_eq_zero.1 e.symm with e | e
    · exact absurd e ha.ne'
    · exact sub_eq_zero.1 e
  · intro hq r hr
    obtain ⟨s, j, i, hs, hj, hi, rfl⟩ := row_split hN hr
    obtain ⟨Q, hQ, hv, hd⟩ := hq s hs i hi
    rw [row_key d f X U P hN t0 tf hs hi hQ hv hj.le (Or.inl hj), hd j hj, sub_self, mul_zero]

section Field2
variable {K : Type} [Field K] [LinearOrder K] [IsStrictOrderedRing K]

theorem uAt_eq (d : Dims) (var : ℕ → K) (k : ℕ) : part d.NU (fun i => var (d.VARX + i)) (k * d.NU) = uAt d var k := by
  unfold uAt
  rw [part_shift]; congr 2; exact Nat.mul_comm _ _

theorem lag_off {d : Dims} {sys : Sys K} {o : Opts K} (h : o.scaling.getD false = false) (ref : ℕ → K) (var : ℕ → K) (k : ℕ) :
    lagrange d sys o ref (nodeXU d var (fun i => var (d.VARX + i)) (fun _ => 0) k)
      = wsum sys.ny (weight o.Q) (fun i => ref i - sys.out (xAt d var k) i) + wsum d.NU (weight o.R) (uAt d var k) := by
  unfold lagrange residual
  have h' : o.scale = false := h
  rw [h', zx_node, zu_node, uAt_eq]
  rfl

theorem ode_off {d : Dims} {sys : Sys K} {o : Opts K} (h : o.scaling.getD false = false) (var : ℕ → K) (k i : ℕ) :
    ode d sys o (nodeXU d var (fun i => var (d.VARX + i)) (fun _ => 0) k) i = sys.f (xAt d var k) (uAt d var k) i := by
  unfold ode
  have h' : o.scale = false := h
  rw [h', zx_node, zu_node, uAt_eq]
  rfl

theorem mayer_off {d : Dims} {sys : Sys K} {o : Opts K} (h : o.scaling.getD false = false) (ref : ℕ → K) (var p : ℕ → K) :
    mayer d sys o ref var p = wsum sys.ny (weight o.P) fun i => ref i - sys.out (xAt d var 0) i := by
  unfold mayer residual
  have h' : o.scale = false := h
  rw [h', cut_part]
  unfold xAt
  rw [Nat.zero_mul]
  rfl
end Field2

/-- **C138.** The program of an unscaled controller. Objective: the terminal weight at the state of node 0, which is the end of the horizon, plus the
composite quadrature of the tracking and control weights. Constraints: the state of each segment is a polynomial that satisfies the differential equation at
all nodes of the segment but its earliest; in particular nothing is asked at the initial time. -/
theorem program_meaning {d : Dims} {sys : Sys ℝ} {o : Opts ℝ} {ref : ℕ → ℝ} {tf : ℝ} {var : ℕ → ℝ} {p : Nlp ℝ} (hS : 1 ≤ d.S) (hN : 1 ≤ d.N) (h : 0 < tf)
    (ho : o.scaling.getD false = false) (hp : nlp d (scheme d.N) sys o ref tf var = some p) :
    p.nVar = d.VARX + d.VARU ∧
    p.f = wsum sys.ny (weight o.P) (fun i => ref i - sys.out (xAt d var 0) i)
      + ∑ s ∈ Finset.range d.S, tf / (2 * d.S) * ∑ m ∈ Finset.range (d.N + 1), (scheme d.N).w m *
          (wsum sys.ny (weight o.Q) (fun i => ref i - sys.out (xAt d var (s * d.N + m)) i) + wsum d.NU (weight o.R) (uAt d var (s * d.N + m))) ∧
    ((∀ r < p.n, p.g r = 0) ↔ ∀ s < d.S, ∀ i < d.NX, ∃ Q : ℝ[X], Q.natDegree ≤ d.N ∧
      (∀ l ≤ d.N, Q.eval (segTime d.S d.N 0 tf s l) = xAt d var (s * d.N + l) i) ∧
      ∀ j < d.N, Q.derivative.eval (segTime d.S d.N 0 tf s j) = sys.f (xAt d var (s * d.N + j)) (uAt d var (s * d.N + j)) i) := by
  obtain ⟨h1, h2, h3, h4⟩ := nlp_ok hp
  refine ⟨h1, ?_, ?_⟩
  · rw [h3]
    unfold collocateCost
    simp only []
    rw [mayer_off ho, lagrange_closed]
    congr 1
    refine Finset.sum_congr rfl fun s _ => ?_
    have e : CasCheb.tScale d 0 tf = tf / (2 * d.S) := by unfold CasCheb.tScale; push_cast; rw [sub_zero]
    rw [e]
    congr 1
    exact Finset.sum_congr rfl fun m _ => by rw [lag_off ho]
  · rw [h2, h4, rows_iff d _ _ _ _ hS hN h]
    refine forall₂_congr fun s hs => forall₂_congr fun i hi => exists_congr fun Q => and_congr_right fun _ => and_congr ?_ ?_
    · refine forall₂_congr fun l _ => ?_
      unfold xAt part
      rw [if_pos hi]
    · exact forall₂_congr fun j _ => by rw [ode_off ho]

end PolyMPC.Nmpc
