import Verif.Props.GenericOcp

/-!
# Properties of `GenericOCP`, continued

C130: bounds on derivatives; C131: derivatives in the cost; C133: soft collocation; C134: repeated solves; C135: named parameters and
the parameter range.
-/

namespace PolyMPC.GenOcp
open Ocp CasCheb Spec Polynomial

set_option linter.unusedSectionVars false
set_option linter.unusedVariables false

/-! ### C130: bounds on derivatives -/

/-- Along the trajectory the components of the expression are, on each segment, the polynomials `Q`. -/
def PolyAlong (d : Dims) (t0 tf : ℝ) (var D : ℕ → ℝ) (e : Expr ℝ) (Q : ℕ → ℕ → ℝ[X]) : Prop :=
  ∀ s < d.S, ∀ i < e.n, (Q s i).natDegree ≤ d.N ∧ ∀ l ≤ d.N,
    e.val (xAt d var (s * d.N + l)) (uAt d var (s * d.N + l)) (pAt d var) D i = (Q s i).eval (segTime d.S d.N t0 tf s l)

theorem deriv1_at (d : Dims) (ND : ℕ) (hS : 1 ≤ d.S) (hN : 1 ≤ d.N) (hND : d.NP ≠ 0 ∨ ND ≠ 0) {t0 tf : ℝ} {var D : ℕ → ℝ} {e : Expr ℝ}
    {Q : ℕ → ℕ → ℝ[X]} (hQ : PolyAlong d t0 tf var D e Q) : ∃ V,
    (cheb d ND (scheme d.N)).deriv (exprFn d one D e) e.dep 1 var (uOf (cheb d ND (scheme d.N)) var) (pOf (cheb d ND (scheme d.N)) var)
      = some (d.NN * e.n, V) ∧
    ∀ s < d.S, ∀ j ≤ d.N, (j < d.N ∨ s + 1 = d.S) → ∀ i < e.n, V ((s * d.N + j) * e.n + i)
      = (tf - t0) / (2 * d.S) * (Q s i).derivative.eval (segTime d.S d.N t0 tf s j) := by
  have hin : (exprFn d one D e).nIn = if d.NP = 0 ∧ ND = 0 then 2 else 4 := by rw [if_neg (by omega)]; rfl
  obtain ⟨V, W, h1, -, h2, -⟩ := differentiate_piecewise d ND (exprFn d one D e) var (uOf (cheb d ND (scheme d.N)) var)
    (pOf (cheb d ND (scheme d.N)) var) hS hN (t0 := t0) (tf := tf) hin Q (fun s hs i hi => (hQ s hs i hi).1) (fun s hs l hl i hi => by
      rw [expr_at]; exact (hQ s hs i hi).2 l hl)
  refine ⟨V, ?_, h2⟩
  show Option.map _ (differentiateFunction d ND _ _ _ _ _ _) = _
  rw [h1]; rfl

theorem deriv2_at (d : Dims) (ND : ℕ) (hS : 1 ≤ d.S) (hN : 1 ≤ d.N) (hND : d.NP ≠ 0 ∨ ND ≠ 0) {t0 tf : ℝ} {var D : ℕ → ℝ} {e : Expr ℝ}
    {Q : ℕ → ℝ[X]} (hQ : PolyAlong d t0 tf var D e fun _ => Q) : ∃ V,
    (cheb d ND (scheme d.N)).deriv (exprFn d one D e) e.dep 2 var (uOf (cheb d ND (scheme d.N)) var) (pOf (cheb d ND (scheme d.N)) var)
      = some (d.NN * e.n, V) ∧
    ∀ s < d.S, ∀ j ≤ d.N, ∀ i < e.n, V ((s * d.N + j) * e.n + i)
      = ((tf - t0) / (2 * d.S)) ^ 2 * (Q i).derivative.derivative.eval (segTime d.S d.N t0 tf s j) := by
  have hin : (exprFn d one D e).nIn = if d.NP = 0 ∧ ND = 0 then 2 else 4 := by rw [if_neg (by omega)]; rfl
  obtain ⟨V, h1, h2⟩ := differentiate_global d ND (exprFn d one D e) 2 var (uOf (cheb d ND (scheme d.N)) var)
    (pOf (cheb d ND (scheme d.N)) var) hS hN (t0 := t0) (tf := tf) hin Q (fun i hi => (hQ 0 (by omega) i hi).1) (fun s hs l hl i hi => by
      rw [expr_at]; exact (hQ s hs i hi).2 l hl)
  refine ⟨V, ?_, h2⟩
  show Option.map _ (differentiateFunction d ND _ _ _ _ _ _) = _
  rw [h1]; rfl

section
variable {K : Type} [Field K] [LinearOrder K] [IsStrictOrderedRing K]

/-- Rows that the derivative operators add. -/
theorem addDiffs_closed {d : Dims} (A : Appr d K) (sc : Scale K) (D X U P : ℕ → K) (q m : ℕ) (V : Expr K → ℕ → K) (es : List (Expr K))
    (hV : ∀ e ∈ es, 0 < e.n ∧ A.deriv (exprFn d sc D e) e.dep q X U P = some (m * e.n, V e)) (c : ℕ × (ℕ → K)) :
    ∃ c', addDiffs d A sc D X U P q es c = some c' ∧ ((∀ r < c'.1, c'.2 r ≤ 0) ↔
      (∀ r < c.1, c.2 r ≤ 0) ∧ ∀ e ∈ es, ∀ k < m, ∀ i < e.n, V e (k * e.n + i) ≤ e.bound i) := by
  induction es generalizing c with
  | nil => exact ⟨c, rfl, by simp⟩
  | cons e es ih =>
    obtain ⟨hn, hd⟩ := hV e List.mem_cons_self
    obtain ⟨c', h1, h2⟩ := ih (fun e he => hV e (List.mem_cons_of_mem _ he)) (c.1 + m * e.n, catV c.1 c.2 fun i => V e i - e.bound (i % e.n))
    refine ⟨c', ?_, h2.trans ?_⟩
    · unfold addDiffs
      rw [hd]
      show (if _ then _ else _) = _
      rw [if_neg]
      · exact h1
      · rintro (h | h)
        · omega
        · exact h (by show m * e.n / e.n * e.n = m * e.n; rw [Nat.mul_div_cancel _ hn])
    · have key : (∀ r < c.1 + m * e.n, catV c.1 c.2 (fun i => V e i - e.bound (i % e.n)) r ≤ 0) ↔
          (∀ r < c.1, c.2 r ≤ 0) ∧ ∀ k < m, ∀ i < e.n, V e (k * e.n + i) ≤ e.bound i := by
        unfold catV
        constructor
        · intro h
          refine ⟨fun r hr => ?_, fun k hk i hi => ?_⟩
          · have := h r (by omega); rwa [if_pos hr] at this
          · have hlt := blk_le hi hk
            have := h (c.1 + (k * e.n + i)) (by omega)
            rw [if_neg (by omega), Nat.add_sub_cancel_left] at this
            simp only [mod_blk k hi] at this
            linarith
        · rintro ⟨h3, h4⟩ r hr
          by_cases hc : r < c.1
          · rw [if_pos hc]; exact h3 r hc
          · rw [if_neg hc]
            obtain ⟨k, i, hk, hi, hki⟩ := blk_split (n := e.n) (r := r - c.1) (m := m) (by rw [Nat.mul_comm]; omega)
            rw [hki]
            simp only [mod_blk k hi]
            have := h4 k hk i hi
            linarith
      show (∀ r < c.1 + m * e.n, catV c.1 c.2 (fun i => V e i - e.bound (i % e.n)) r ≤ 0) ∧ _ ↔ _
      rw [key]
      simp only [List.mem_cons, forall_eq_or_imp, and_assoc]

/-- The same problem without bounds on derivatives. -/
def User.noDiffs (usr : User K) : User K := { usr with diffs := [], ddiffs := [] }

theorem costDyn_noDiffs {d : Dims} (A : Appr d K) (o : Opts K) (sc : Scale K) (usr : User K) (t0 tf : K) (D X U P : ℕ → K) :
    costDyn d A o sc usr.noDiffs t0 tf D X U P = costDyn d A o sc usr t0 tf D X U P := rfl

theorem finRows_noDiffs {d : Dims} (A : Appr d K) (sc : Scale K) (usr : User K) (D X U P : ℕ → K) :
    finRows d A sc usr.noDiffs D X U P = finRows d A sc usr D X U P := rfl

/-- **C130 (negative).** Bounds on derivatives are dropped silently if the problem has no other path constraint: for every approximation
class and all options. -/
theorem diffs_dropped {d : Dims} (A : Appr d K) (o : Opts K) (usr : User K) (t0 tf : K) (var D : ℕ → K) (h : usr.ineq.n = 0) :
    setup d A o usr t0 tf var D = setup d A o usr.noDiffs t0 tf var D := by
  have e : ∀ sc, pathRows d A sc usr D var (uOf A var) (pOf A var) = pathRows d A sc usr.noDiffs D var (uOf A var) (pOf A var) := by
    intro sc
    unfold pathRows
    rw [if_pos h, if_pos (show usr.noDiffs.ineq.n = 0 from h)]
  unfold setup
  simp only [e]
  rfl
end

/-- **C130 (negative).** With at least one other path constraint: a bound `c` on the derivative of an expression imposes
`(tf - t0)/(2 S) · g'(t) ≤ c` at the nodes, and a bound on the second derivative `((tf - t0)/(2 S))² · g''(t) ≤ c`: the derivatives are taken
with respect to the time of one segment scaled to `[-1, 1]`, not with respect to time. -/
theorem diff_bounds (d : Dims) (ND : ℕ) (o : Opts ℝ) (usr : User ℝ) (var D : ℕ → ℝ) (hS : 1 ≤ d.S) (hN : 1 ≤ d.N) {t0 tf : ℝ}
    (hND : d.NP ≠ 0 ∨ ND ≠ 0) (hsc : o.scaling.getD false = false) (hus : o.useSlacks.getD false = false) (hi : 0 < usr.ineq.n)
    (Q : Expr ℝ → ℕ → ℕ → ℝ[X]) (hQ : ∀ e ∈ usr.diffs, 0 < e.n ∧ PolyAlong d t0 tf var D e (Q e))
    (R : Expr ℝ → ℕ → ℝ[X]) (hR : ∀ e ∈ usr.ddiffs, 0 < e.n ∧ PolyAlong d t0 tf var D e fun _ => R e)
    {n0 : Nlp ℝ} (h0 : setup d (cheb d ND (scheme d.N)) o usr.noDiffs t0 tf var D = some n0) :
    ∃ n, setup d (cheb d ND (scheme d.N)) o usr t0 tf var D = some n ∧ n.f = n0.f ∧ (RowsOk n ↔ RowsOk n0 ∧
      (∀ e ∈ usr.diffs, ∀ s < d.S, ∀ j ≤ d.N, (j < d.N ∨ s + 1 = d.S) → ∀ i < e.n,
        (tf - t0) / (2 * d.S) * (Q e s i).derivative.eval (segTime d.S d.N t0 tf s j) ≤ e.bound i) ∧
      (∀ e ∈ usr.ddiffs, ∀ s < d.S, ∀ j ≤ d.N, (j < d.N ∨ s + 1 = d.S) → ∀ i < e.n,
        ((tf - t0) / (2 * d.S)) ^ 2 * (R e i).derivative.derivative.eval (segTime d.S d.N t0 tf s j) ≤ e.bound i)) := by
  obtain ⟨sc, ty, cd, pr0, fr, h1, h2, h3, h4, h5, h6⟩ := setup_some h0
  rw [scalers_off hsc] at h1
  cases h1
  have h3' := h3
  have h5' := h5
  rw [costDyn_noDiffs] at h3'
  rw [finRows_noDiffs] at h5'
  obtain ⟨F, hF, -⟩ := func_at d ND (scheme d.N) var D hND usr.ineq
  have hpr0 : pr0 = (d.NN * usr.ineq.n, F) := by
    unfold pathRows at h4
    rw [if_neg (show ¬ usr.noDiffs.ineq.n = 0 from by show ¬ usr.ineq.n = 0; omega)] at h4
    rw [show (usr.noDiffs).ineq = usr.ineq from rfl, hF] at h4
    cases h4; rfl
  classical
  -- values of the derivatives
  choose! V1 hV1 hV1' using fun e he => deriv1_at d ND hS hN hND (hQ e he).2
  choose! V2 hV2 hV2' using fun e he => deriv2_at d ND hS hN hND (hR e he).2
  obtain ⟨c1, a1, a2⟩ := addDiffs_closed (cheb d ND (scheme d.N)) one D var (uOf (cheb d ND (scheme d.N)) var) (pOf (cheb d ND (scheme d.N)) var) 1 d.NN V1 usr.diffs (fun e he => ⟨(hQ e he).1, hV1 e he⟩)
    (d.NN * usr.ineq.n, F)
  obtain ⟨c2, b1, b2⟩ := addDiffs_closed (cheb d ND (scheme d.N)) one D var (uOf (cheb d ND (scheme d.N)) var) (pOf (cheb d ND (scheme d.N)) var) 2 d.NN V2 usr.ddiffs (fun e he => ⟨(hR e he).1, hV2 e he⟩) c1
  have hp : pathRows d (cheb d ND (scheme d.N)) one usr D var (uOf (cheb d ND (scheme d.N)) var) (pOf (cheb d ND (scheme d.N)) var) = some c2 := by
    unfold pathRows
    rw [if_neg (by omega), hF]
    show (addDiffs d (cheb d ND (scheme d.N)) one D var (uOf (cheb d ND (scheme d.N)) var) (pOf (cheb d ND (scheme d.N)) var) 1 usr.diffs (d.NN * usr.ineq.n, F)).bind _ = _
    rw [a1]; exact b1
  obtain ⟨n, e1, _, _, e2, _, e3⟩ := setup_plain (cheb d ND (scheme d.N)) o usr t0 tf var D (scalers_off hsc) h2 hus h3' hp h5'
  obtain ⟨n0', g1, _, _, g2, _, g3⟩ := setup_plain (cheb d ND (scheme d.N)) o usr.noDiffs t0 tf var D (scalers_off hsc) h2 hus h3 h4 h5
  rw [h0] at g1; cases g1
  refine ⟨n, e1, e2.trans g2.symm, ?_⟩
  rw [e3, g3, b2, a2, hpr0]
  have nodes : ∀ {P : ℕ → Prop}, (∀ k < d.NN, P k) ↔ ∀ s < d.S, ∀ j ≤ d.N, (j < d.N ∨ s + 1 = d.S) → P (s * d.N + j) := by
    intro P
    constructor
    · intro h s hs j hj _
      exact h _ (node_lt d hs hj)
    · intro h k hk
      obtain ⟨s, j, hs, hj, hjs, rfl⟩ := node_split d hS hN hk
      exact h s hs j hj hjs
  have k1 : (∀ e ∈ usr.diffs, ∀ k < d.NN, ∀ i < e.n, V1 e (k * e.n + i) ≤ e.bound i) ↔
      ∀ e ∈ usr.diffs, ∀ s < d.S, ∀ j ≤ d.N, (j < d.N ∨ s + 1 = d.S) → ∀ i < e.n,
        (tf - t0) / (2 * d.S) * (Q e s i).derivative.eval (segTime d.S d.N t0 tf s j) ≤ e.bound i := by
    refine forall_congr' fun e => forall_congr' fun he => nodes.trans ?_
    refine forall_congr' fun s => forall_congr' fun hs => forall_congr' fun j => forall_congr' fun hj => forall_congr' fun hjs =>
      forall_congr' fun i => forall_congr' fun hi => ?_
    rw [hV1' e he s hs j hj hjs i hi]
  have k2 : (∀ e ∈ usr.ddiffs, ∀ k < d.NN, ∀ i < e.n, V2 e (k * e.n + i) ≤ e.bound i) ↔
      ∀ e ∈ usr.ddiffs, ∀ s < d.S, ∀ j ≤ d.N, (j < d.N ∨ s + 1 = d.S) → ∀ i < e.n,
        ((tf - t0) / (2 * d.S)) ^ 2 * (R e i).derivative.derivative.eval (segTime d.S d.N t0 tf s j) ≤ e.bound i := by
    refine forall_congr' fun e => forall_congr' fun he => nodes.trans ?_
    refine forall_congr' fun s => forall_congr' fun hs => forall_congr' fun j => forall_congr' fun hj => forall_congr' fun hjs =>
      forall_congr' fun i => forall_congr' fun hi => ?_
    rw [hV2' e he s hs j hj i hi]
  rw [k1, k2]
  constructor
  · rintro ⟨x1, ⟨⟨x2, x3⟩, x4⟩, x5⟩
    exact ⟨⟨x1, x2, x5⟩, x3, x4⟩
  · rintro ⟨⟨x1, x2, x5⟩, x3, x4⟩
    exact ⟨x1, ⟨⟨x2, x3⟩, x4⟩, x5⟩

/-! ### C131: derivatives in the cost -/

/-- The weights of the quadrature add up to the length of the horizon. -/
theorem quad_const (d : Dims) (hS : 1 ≤ d.S) (hN : 1 ≤ d.N) {t0 tf : ℝ} (h : t0 < tf) (c : ℝ) :
    ∑ s ∈ Finset.range d.S, CasCheb.tScale d t0 tf * ∑ m ∈ Finset.range (d.N + 1), (scheme d.N).w m * c = c * (tf - t0) := by
  have hs : CasCheb.tScale d t0 tf * ∑ m ∈ Finset.range (d.N + 1), (scheme d.N).w m * c = c * ((tf - t0) / d.S) := by
    have := seg_integral d hS hN h 0 (Q := C c) (by simp)
    simp only [eval_C] at this
    rw [this, intervalIntegral.integral_const, smul_eq_mul]
    unfold segTime
    rw [show ((0 : ℕ) : ℝ) * (Real.pi / d.N) = 0 by simp, Real.cos_zero]
    have hN' : (d.N : ℝ) ≠ 0 := by exact_mod_cast (by omega : d.N ≠ 0)
    rw [show (d.N : ℝ) * (Real.pi / d.N) = Real.pi by field_simp, Real.cos_pi]
    ring
  simp only [hs, Finset.sum_const, Finset.card_range, nsmul_eq_mul]
  have hS' : (d.S : ℝ) ≠ 0 := by exact_mod_cast (by omega : d.S ≠ 0)
  field_simp

/-- A sum over all nodes, segment by segment. -/
theorem sum_nodes (d : Dims) (hS : 1 ≤ d.S) (f : ℕ → ℝ) : ∑ k ∈ Finset.range d.NN, f k
    = ∑ s ∈ Finset.range d.S, ∑ j ∈ Finset.range d.N, f (s * d.N + j) + f ((d.S - 1) * d.N + d.N) := by
  unfold Dims.NN
  rw [Finset.sum_range_succ, sum_blocks']
  congr 2
  obtain ⟨S, hS⟩ : ∃ S, d.S = S + 1 := ⟨d.S - 1, by omega⟩
  rw [hS, Nat.add_sub_cancel]; ring

/-- The problem with `norm_diff(e, W)` added to the running cost. -/
noncomputable def User.withNorm (usr : User ℝ) (W : ℕ → ℕ → ℝ) (e : Expr ℝ) : User ℝ :=
  { usr with lag := fun x u p D => usr.lag x u p D + normDiffValue, norms := [normDiff W e], costIsZero := false }

/-- **C131 (negative).** Adding `norm_diff(g, W)` to the running cost adds `5 (tf - t0)` and the SUM over the nodes of
`‖√W · (tf - t0)/(2 S) g'(t)‖²` with the square root of the weight taken entry by entry: no quadrature weights, and derivatives with
respect to scaled time. -/
theorem norm_diff_cost (d : Dims) (ND : ℕ) (o : Opts ℝ) (usr : User ℝ) (var D : ℕ → ℝ) (hS : 1 ≤ d.S) (hN : 1 ≤ d.N) (hX : 1 ≤ d.NX) {t0 tf : ℝ}
    (h : t0 < tf) (hND : d.NP ≠ 0 ∨ ND ≠ 0) (hsc : o.scaling.getD false = false) (hus : o.useSlacks.getD false = false)
    (hn : usr.norms = []) (hnn : usr.nnorms = []) (W : ℕ → ℕ → ℝ) (e : Expr ℝ) (Q : ℕ → ℕ → ℝ[X]) (hQ : PolyAlong d t0 tf var D e Q) {n : Nlp ℝ}
    (h0 : setup d (cheb d ND (scheme d.N)) o usr t0 tf var D = some n) :
    ∃ n', setup d (cheb d ND (scheme d.N)) o (usr.withNorm W e) t0 tf var D = some n' ∧ (RowsOk n' ↔ RowsOk n) ∧
      n'.f = n.f + 5 * (tf - t0) + ((tf - t0) / (2 * d.S)) ^ 2 * (
        ∑ s ∈ Finset.range d.S, ∑ j ∈ Finset.range d.N, ∑ i ∈ Finset.range e.n,
          (∑ l ∈ Finset.range e.n, √(W i l) * (Q s l).derivative.eval (segTime d.S d.N t0 tf s j)) ^ 2
        + ∑ i ∈ Finset.range e.n, (∑ l ∈ Finset.range e.n, √(W i l) * (Q (d.S - 1) l).derivative.eval (segTime d.S d.N t0 tf (d.S - 1) d.N)) ^ 2) := by
  have hv := varx_ne hS hN hX
  obtain ⟨sc, ty, cd, pr, fr, h1, h2, h3, h4, h5, h6⟩ := setup_some h0
  rw [scalers_off hsc] at h1
  cases h1
  -- the weighted expression along the trajectory
  have hQ' : PolyAlong d t0 tf var D (normDiff W e) fun s i => ∑ l ∈ Finset.range e.n, C (√(W i l)) * Q s l := by
    intro s hs i hi
    refine ⟨natDegree_sum_le_of_forall_le _ _ fun l hl => (natDegree_C_mul_le _ _).trans (hQ s hs l (Finset.mem_range.1 hl)).1, fun m hm => ?_⟩
    rw [eval_finsetSum]
    show ∑ l ∈ Finset.range e.n, √(W i l) * e.val (xAt d var (s * d.N + m)) (uAt d var (s * d.N + m)) (pAt d var) D l = _
    refine Finset.sum_congr rfl fun l hl => ?_
    rw [eval_mul, eval_C, ← (hQ s hs l (Finset.mem_range.1 hl)).2 m hm]
  obtain ⟨V, hV, hV'⟩ := deriv1_at d ND hS hN hND hQ'
  have hval : ∀ s < d.S, ∀ j ≤ d.N, (j < d.N ∨ s + 1 = d.S) → ∀ i < e.n, V ((s * d.N + j) * e.n + i)
      = (tf - t0) / (2 * d.S) * ∑ l ∈ Finset.range e.n, √(W i l) * (Q s l).derivative.eval (segTime d.S d.N t0 tf s j) := by
    intro s hs j hj hjs i hi
    refine (hV' s hs j hj hjs i hi).trans ?_
    congr 1
    rw [derivative_sum, eval_finsetSum]
    refine Finset.sum_congr rfl fun l _ => ?_
    rw [derivative_C_mul, eval_mul, eval_C]
  have hsum : ∑ r ∈ Finset.range (d.NN * e.n), V r * V r = ((tf - t0) / (2 * d.S)) ^ 2 * (
        ∑ s ∈ Finset.range d.S, ∑ j ∈ Finset.range d.N, ∑ i ∈ Finset.range e.n,
          (∑ l ∈ Finset.range e.n, √(W i l) * (Q s l).derivative.eval (segTime d.S d.N t0 tf s j)) ^ 2
        + ∑ i ∈ Finset.range e.n, (∑ l ∈ Finset.range e.n, √(W i l) * (Q (d.S - 1) l).derivative.eval (segTime d.S d.N t0 tf (d.S - 1) d.N)) ^ 2) := by
    rw [sum_blocks', sum_nodes d hS, mul_add, Finset.mul_sum]
    congr 1
    · refine Finset.sum_congr rfl fun s hs => ?_
      rw [Finset.mul_sum]
      refine Finset.sum_congr rfl fun j hj => ?_
      have hj := Finset.mem_range.1 hj
      rw [Finset.mul_sum]
      refine Finset.sum_congr rfl fun i hi => ?_
      rw [hval s (Finset.mem_range.1 hs) j hj.le (Or.inl hj) i (Finset.mem_range.1 hi)]; ring
    · rw [Finset.mul_sum]
      refine Finset.sum_congr rfl fun i hi => ?_
      rw [hval (d.S - 1) (by omega) d.N le_rfl (Or.inr (by omega)) i (Finset.mem_range.1 hi)]; ring
  -- cost and rows
  have hcd : cd = ((cheb d ND (scheme d.N)).cost (mayerFn d one usr D) (lagFn d one usr D) t0 tf var (uOf (cheb d ND (scheme d.N)) var)
      (pOf (cheb d ND (scheme d.N)) var), cd.2) ∧ costDyn d (cheb d ND (scheme d.N)) o one (usr.withNorm W e) t0 tf D var
      (uOf (cheb d ND (scheme d.N)) var) (pOf (cheb d ND (scheme d.N)) var)
      = some (cd.1 + 5 * (tf - t0) + ∑ r ∈ Finset.range (d.NN * e.n), V r * V r, cd.2) := by
    unfold costDyn at h3 ⊢
    rw [show (cheb d ND (scheme d.N)).dynamics (dynFn d one usr D) t0 tf var (uOf (cheb d ND (scheme d.N)) var)
        (pOf (cheb d ND (scheme d.N)) var) = (d.VARX, collocateDynamics d (scheme d.N) (dynFn d one usr D) t0 tf var
          (uOf (cheb d ND (scheme d.N)) var) (pOf (cheb d ND (scheme d.N)) var)) from rfl] at h3
    rw [show (cheb d ND (scheme d.N)).dynamics (dynFn d one (usr.withNorm W e) D) t0 tf var (uOf (cheb d ND (scheme d.N)) var)
        (pOf (cheb d ND (scheme d.N)) var) = (d.VARX, collocateDynamics d (scheme d.N) (dynFn d one usr D) t0 tf var
          (uOf (cheb d ND (scheme d.N)) var) (pOf (cheb d ND (scheme d.N)) var)) from rfl]
    simp only [if_neg hv] at h3 ⊢
    have hterm : normTerms d (cheb d ND (scheme d.N)) one usr D var (uOf (cheb d ND (scheme d.N)) var) (pOf (cheb d ND (scheme d.N)) var)
        ((cheb d ND (scheme d.N)).cost (mayerFn d one usr D) (lagFn d one usr D) t0 tf var (uOf (cheb d ND (scheme d.N)) var)
          (pOf (cheb d ND (scheme d.N)) var)) = some ((cheb d ND (scheme d.N)).cost (mayerFn d one usr D) (lagFn d one usr D) t0 tf var
          (uOf (cheb d ND (scheme d.N)) var) (pOf (cheb d ND (scheme d.N)) var)) := by
      unfold normTerms; rw [hn, hnn]; cases usr.costIsZero <;> rfl
    rw [hterm] at h3
    have h3 := Option.some.inj h3
    subst h3
    refine ⟨rfl, ?_⟩
    unfold normTerms
    rw [show (usr.withNorm W e).costIsZero = false from rfl, show (usr.withNorm W e).norms = [normDiff W e] from rfl,
      show (usr.withNorm W e).nnorms = [] from hnn]
    simp only [Bool.false_eq_true, if_false, addNorms]
    rw [hV]
    have hc : (cheb d ND (scheme d.N)).cost (mayerFn d one (usr.withNorm W e) D) (lagFn d one (usr.withNorm W e) D) t0 tf var
        (uOf (cheb d ND (scheme d.N)) var) (pOf (cheb d ND (scheme d.N)) var)
        = (cheb d ND (scheme d.N)).cost (mayerFn d one usr D) (lagFn d one usr D) t0 tf var (uOf (cheb d ND (scheme d.N)) var)
          (pOf (cheb d ND (scheme d.N)) var) + 5 * (tf - t0) := by
      show mayerFn d one usr D var _ + lagrangePart d (scheme d.N) _ t0 tf var _ _ = mayerFn d one usr D var _ + lagrangePart d (scheme d.N) _ t0 tf var _ _ + _
      rw [add_assoc, lagrange_closed, lagrange_closed, ← quad_const d hS hN h 5, ← Finset.sum_add_distrib]
      congr 1
      refine Finset.sum_congr rfl fun s _ => ?_
      rw [← mul_add, ← Finset.sum_add_distrib]
      congr 1
      refine Finset.sum_congr rfl fun m _ => ?_
      rw [← mul_add]
      rfl
    rw [hc]
    rfl
  obtain ⟨n', e1, _, _, e2, _, e3⟩ := setup_plain (cheb d ND (scheme d.N)) o (usr.withNorm W e) t0 tf var D (scalers_off hsc) h2 hus hcd.2
    (pr := pr) (fr := fr) h4 h5
  obtain ⟨n0, g1, _, _, g2, _, g3⟩ := setup_plain (cheb d ND (scheme d.N)) o usr t0 tf var D (scalers_off hsc) h2 hus h3 h4 h5
  rw [h0] at g1; cases g1
  refine ⟨n', e1, e3.trans g3.symm, ?_⟩
  rw [e2, g2, hsum]

end PolyMPC.GenOcp
