import Verif.Props.GenericOcpDiff
import Verif.Props.GenericOcpSoft
import Verif.Props.GenericOcpObj

/-!
# C127-C135: corollaries for the cost of derivatives, and concrete cases
-/

set_option linter.unusedSectionVars false

namespace PolyMPC.GenOcp

open PolyMPC.Ocp PolyMPC.CasCheb PolyMPC.Spec Polynomial

/-! ### C131: corollaries -/

/-- **C131 (negative).** For a scalar expression of constant slope `a` and the weight `w ≥ 0`, the term that is meant to be the integral
`w a² (tf - t0)` is `w a² ((tf - t0)/(2 S))² (S N + 1)`: it grows with the degree of the polynomials. -/
theorem norm_diff_constant (d : Dims) (ND : ℕ) (o : Opts ℝ) (usr : User ℝ) (var D : ℕ → ℝ) (hS : 1 ≤ d.S) (hN : 1 ≤ d.N) (hX : 1 ≤ d.NX) {t0 tf : ℝ}
    (h : t0 < tf) (hND : d.NP ≠ 0 ∨ ND ≠ 0) (hsc : o.scaling.getD false = false) (hus : o.useSlacks.getD false = false)
    (hn : usr.norms = []) (hnn : usr.nnorms = []) {w : ℝ} (hw : 0 ≤ w) (e : Expr ℝ) (he : e.n = 1) (a b : ℝ)
    (hQ : PolyAlong d t0 tf var D e fun _ _ => C a * X + C b) {n : Nlp ℝ}
    (h0 : setup d (cheb d ND (scheme d.N)) o usr t0 tf var D = some n) :
    ∃ n', setup d (cheb d ND (scheme d.N)) o (usr.withNorm (fun _ _ => w) e) t0 tf var D = some n' ∧
      n'.f = n.f + 5 * (tf - t0) + w * a ^ 2 * (((tf - t0) / (2 * d.S)) ^ 2 * (d.S * d.N + 1)) := by
  obtain ⟨n', h1, -, h2⟩ := norm_diff_cost d ND o usr var D hS hN hX h hND hsc hus hn hnn (fun _ _ => w) e _ hQ h0
  refine ⟨n', h1, ?_⟩
  rw [h2, he]
  simp only [Finset.sum_range_one, derivative_add, derivative_C_mul, derivative_X, derivative_C, mul_one, add_zero, eval_C, Finset.sum_const,
    Finset.card_range, nsmul_eq_mul, mul_pow, Real.sq_sqrt hw]
  ring

/-- **C131 (negative).** The square root of the weight is taken entry by entry: for two components with slopes `a`, `b` and the weight with
all entries one, each node contributes `2 (a + b)²`, twice the value of the quadratic form. -/
theorem norm_diff_weight (d : Dims) (ND : ℕ) (o : Opts ℝ) (usr : User ℝ) (var D : ℕ → ℝ) (hS : 1 ≤ d.S) (hN : 1 ≤ d.N) (hX : 1 ≤ d.NX) {t0 tf : ℝ}
    (h : t0 < tf) (hND : d.NP ≠ 0 ∨ ND ≠ 0) (hsc : o.scaling.getD false = false) (hus : o.useSlacks.getD false = false)
    (hn : usr.norms = []) (hnn : usr.nnorms = []) (e : Expr ℝ) (he : e.n = 2) (a b a0 b0 : ℝ)
    (hQ : PolyAlong d t0 tf var D e fun _ i => if i = 0 then C a * X + C a0 else C b * X + C b0) {n : Nlp ℝ}
    (h0 : setup d (cheb d ND (scheme d.N)) o usr t0 tf var D = some n) :
    ∃ n', setup d (cheb d ND (scheme d.N)) o (usr.withNorm (fun _ _ => 1) e) t0 tf var D = some n' ∧
      n'.f = n.f + 5 * (tf - t0) + ((tf - t0) / (2 * d.S)) ^ 2 * (d.S * d.N + 1) * (2 * (a + b) ^ 2) := by
  obtain ⟨n', h1, -, h2⟩ := norm_diff_cost d ND o usr var D hS hN hX h hND hsc hus hn hnn (fun _ _ => 1) e _ hQ h0
  refine ⟨n', h1, ?_⟩
  rw [h2, he]
  simp only [Finset.sum_range_succ, Finset.sum_range_zero, zero_add, if_true, if_neg (one_ne_zero : (1 : ℕ) ≠ 0), derivative_add, derivative_C_mul,
    derivative_X, derivative_C, mul_one, add_zero, eval_C, Real.sqrt_one, one_mul, Finset.sum_const, Finset.card_range, nsmul_eq_mul]
  ring

/-- **C131 (negative).** If the rest of the cost is structurally zero, what `norm_diff` registers is dropped, for every approximation class. -/
theorem norm_diff_dropped {K : Type} [Field K] [LinearOrder K] [IsStrictOrderedRing K] {d : Dims} (A : Appr d K) (o : Opts K) (usr : User K)
    (t0 tf : K) (var D : ℕ → K) (h : usr.costIsZero = true) (es es' : List (Expr K)) :
    setup d A o { usr with norms := es, nnorms := es' } t0 tf var D = setup d A o { usr with norms := [], nnorms := [] } t0 tf var D := by
  have e : ∀ sc, costDyn d A o sc { usr with norms := es, nnorms := es' } t0 tf D var (uOf A var) (pOf A var)
      = costDyn d A o sc { usr with norms := [], nnorms := [] } t0 tf D var (uOf A var) (pOf A var) := by
    intro sc
    unfold costDyn normTerms
    simp only [h, if_true]
    rfl
  unfold setup
  simp only [e]
  rfl

/-! ### A concrete problem: `x' = u`, running cost `u²`, terminal cost `x²`, `x ≤ p`, horizon `[0, 2]`, one segment of degree one -/

section Ex
variable (K : Type) [Field K]

def exO : Dims := ⟨1, 1, 1, 0, 1, 1⟩
def exUsr : User K where
  dyn := fun _ u _ _ _ => u 0
  lag := fun _ u _ _ => u 0 ^ 2
  mayer := fun x _ _ => x 0 ^ 2
  ineq := ⟨1, fun x _ p _ _ => x 0 - p 0, true, fun _ => 0⟩
  fin := ⟨0, fun _ _ _ _ _ => 0, false, fun _ => 0⟩
  norms := []
  nnorms := []
  diffs := []
  ddiffs := []
  costIsZero := false
/-- Final state, initial state, controls, parameter, and two slack variables. -/
def exVar : ℕ → K := fun i => if i = 0 then 2 else if i = 1 then 0 else if i = 2 then 1 else if i = 3 then 1 else if i = 4 then 3 else if i = 5 then 1 else 3
end Ex

/-- `scheme 1`, in rational numbers. -/
def exA : Approx ℚ := ⟨fun _ j => if j = 0 then 1 / 2 else - 1 / 2, fun j => if j = 0 then 1 else -1, fun _ => 1⟩

/-- What is shown of a program. -/
def shown (n : Option (Nlp ℚ)) : Option (ℕ × ℕ × ℚ × List ℚ) := n.map fun n => (n.nVar, n.nSlack, n.f, (List.range n.c.n).map n.c.g)

/-- C127: the program at the point: five variables, cost `x(2)² + ∫ u² = 6`, two rows of the dynamics (zero) and two of the path constraint. -/
example : shown (setup exO (cheb exO 0 exA) {} (exUsr ℚ) 0 2 (exVar ℚ) fun _ => 0) = some (5, 0, 6, [0, 0, -1, -3]) := by decide +kernel
theorem exTime1 : segTime 1 1 0 2 0 0 = 2 ∧ segTime 1 1 0 2 0 1 = 0 := by
  unfold segTime; constructor <;> norm_num

/-- C127: the hypotheses of `program_meaning` hold for it, and the point is feasible. -/
theorem exFeasible : ∃ n, setup exO (cheb exO 0 (scheme 1)) {} (exUsr ℝ) 0 2 (exVar ℝ) (fun _ => 0) = some n ∧ n.nVar = 5 ∧ RowsOk n := by
  obtain ⟨n, h1, h2, -, h4⟩ := program_meaning exO 0 {} (exUsr ℝ) (exVar ℝ) (fun _ => 0) le_rfl le_rfl le_rfl (t0 := 0) (tf := 2) (by norm_num)
    (Or.inl Nat.one_ne_zero) rfl rfl rfl rfl rfl rfl
  refine ⟨n, h1, h2, h4.2 ⟨fun s hs i hi => ⟨X, natDegree_X_le, ?_, ?_⟩, ?_, fun h => absurd h (lt_irrefl 0)⟩⟩
  · obtain rfl : s = 0 := Nat.lt_one_iff.1 hs
    obtain rfl : i = 0 := Nat.lt_one_iff.1 hi
    intro l hl
    have : l = 0 ∨ l = 1 := by have : l ≤ 1 := hl; omega
    rcases this with rfl | rfl
    · show eval (segTime 1 1 0 2 0 0) X = exVar ℝ 0
      rw [exTime1.1, eval_X]; norm_num [exVar]
    · show eval (segTime 1 1 0 2 0 1) X = exVar ℝ 1
      rw [exTime1.2, eval_X]; norm_num [exVar]
  · obtain rfl : s = 0 := Nat.lt_one_iff.1 hs
    intro j hj _
    have : j = 0 ∨ j = 1 := by have : j ≤ 1 := hj; omega
    rw [derivative_X, eval_one]
    rcases this with rfl | rfl
    · show 1 = uAt exO (exVar ℝ) 0 0
      unfold uAt part exVar exO Dims.NN; norm_num
    · show 1 = uAt exO (exVar ℝ) 1 0
      unfold uAt part exVar exO Dims.NN; norm_num
  · intro k hk i hi
    have : k = 0 ∨ k = 1 := by have : k < 2 := hk; omega
    rcases this with rfl | rfl
    · show xAt exO (exVar ℝ) 0 0 - pAt exO (exVar ℝ) 0 ≤ 0
      unfold xAt pAt part exVar exO Dims.NN; norm_num
    · show xAt exO (exVar ℝ) 1 0 - pAt exO (exVar ℝ) 0 ≤ 0
      unfold xAt pAt part exVar exO Dims.NN; norm_num

/-- C128: with factors `2`, `5`, `3` the scaled program at the scaled point has the same cost, its rows of the dynamics carry the factor of the state, and
those of the constraint are the same. With parameters in the dynamics `x' = u p / 3` the rows change. -/
example : shown (setup exO (cheb exO 0 exA) { scaling := some true, scaleX := some [2], scaleU := some [5], scaleP := some [3] } (exUsr ℚ) 0 2
      (rescale 1 2 1 2 1 (fun _ => 2) (fun _ => 5) (fun _ => 3) (exVar ℚ)) fun _ => 0) = some (5, 0, 6, [0, 0, -1, -3]) ∧
    shown (setup exO (cheb exO 0 exA) { scaling := some true } { exUsr ℚ with dyn := fun _ u p _ _ => u 0 * p 0 / 3 } 0 2 (exVar ℚ) fun _ => 0)
      = some (5, 0, 6, [0, 0, -1, -3]) ∧
    shown (setup exO (cheb exO 0 exA) { scaling := some true, scaleX := some [2], scaleU := some [5], scaleP := some [3] }
      { exUsr ℚ with dyn := fun _ u p _ _ => u 0 * p 0 / 3 } 0 2
      (rescale 1 2 1 2 1 (fun _ => 2) (fun _ => 5) (fun _ => 3) (exVar ℚ)) fun _ => 0) = some (5, 0, 6, [-4, -4, -1, -3]) := by
  decide +kernel

/-- C128: a box. -/
example : (setStateBox (cheb exO 0 exA) ⟨fun _ => 2, fun _ => 1, fun _ => 1⟩ 1 (fun _ => some (-1)) (fun _ => none)
    (construct (assemble false 5 Block.nil (0, fun _ => 0) (0, fun _ => 0) (fun _ => 0) (0 : ℚ)) 0)).map
      (fun o => (List.range 5).map o.arg.lbx) = some [some (-2), some (-2), none, none, none] := by decide +kernel

/-- C129: with slack variables the rows are `g + s = 0`; at the point, where no constraint is active, the cost rises from `6` to `6 + 10 (1 + 9)`. -/
example : shown (setup exO (cheb exO 0 exA) { useSlacks := some true } (exUsr ℚ) 0 2 (exVar ℚ) fun _ => 0) = some (7, 2, 106, [0, 0, 0, 0]) := by
  decide +kernel

/-- C130: the bound `x' ≤ 1/2` of a trajectory of slope `1` on a horizon of length `2`, with one other constraint (horizon `[0, 1]`: the row is
negative although the slope is `2`), and dropped without one. -/
example : shown (setup exO (cheb exO 0 exA) {} { exUsr ℚ with diffs := [⟨1, fun x _ _ _ _ => x 0, true, fun _ => 3 / 2⟩] } 0 1 (exVar ℚ) fun _ => 0)
      = some (5, 0, 5, [1 / 2, 1 / 2, -1, -3, -1 / 2, -1 / 2]) ∧
    shown (setup exO (cheb exO 0 exA) {} { exUsr ℚ with
      ineq := ⟨0, fun _ _ _ _ _ => 0, false, fun _ => 0⟩, diffs := [⟨1, fun x _ _ _ _ => x 0, true, fun _ => 3 / 2⟩] } 0 1 (exVar ℚ) fun _ => 0)
      = some (5, 0, 5, [1 / 2, 1 / 2]) := by decide +kernel

theorem exAlong : PolyAlong exO 0 2 (exVar ℝ) (fun _ => 0) ⟨1, fun x _ _ _ _ => x 0, true, fun _ => 0⟩ fun _ _ => C 1 * X + C 0 := by
  intro s hs i hi
  obtain rfl : s = 0 := Nat.lt_one_iff.1 hs
  refine ⟨natDegree_linear_le, fun l hl => ?_⟩
  have : l = 0 ∨ l = 1 := by have : l ≤ 1 := hl; omega
  rcases this with rfl | rfl
  · show xAt exO (exVar ℝ) 0 0 = eval (segTime 1 1 0 2 0 0) _
    rw [exTime1.1]; unfold xAt part exVar exO; simp
  · show xAt exO (exVar ℝ) 1 0 = eval (segTime 1 1 0 2 0 1) _
    rw [exTime1.2]; unfold xAt part exVar exO; simp

/-- C130, C131, C133: the trajectory is a polynomial; the slope `1` is within the bound `1`, its square costs `5 · 2 + 2 · 1` in place of
`∫ 1 = 2`; and the point has no residual, so the soft program has the same cost there. -/
example : (∃ n n', setup exO (cheb exO 0 (scheme 1)) {} (exUsr ℝ) 0 2 (exVar ℝ) (fun _ => 0) = some n ∧
      setup exO (cheb exO 0 (scheme 1)) {} ((exUsr ℝ).withNorm (fun _ _ => 1) ⟨1, fun x _ _ _ _ => x 0, true, fun _ => 0⟩) 0 2 (exVar ℝ)
        (fun _ => 0) = some n' ∧ n'.f = n.f + 12) ∧
    (∃ n n', setup exO (cheb exO 0 (scheme 1)) {} (exUsr ℝ) 0 2 (exVar ℝ) (fun _ => 0) = some n ∧ RowsOk n ∧
      setup exO (soft exO 0 (scheme 1)) {} (exUsr ℝ) 0 2 (exVar ℝ) (fun _ => 0) = some n' ∧ n'.f = n.f) := by
  obtain ⟨n, h1, -, h3⟩ := exFeasible
  constructor
  · obtain ⟨n', e1, e2⟩ := norm_diff_constant exO 0 {} (exUsr ℝ) (exVar ℝ) (fun _ => 0) le_rfl le_rfl le_rfl (by norm_num : (0 : ℝ) < 2)
      (Or.inl Nat.one_ne_zero) rfl rfl rfl rfl zero_le_one _ rfl 1 0 exAlong h1
    refine ⟨n, n', h1, e1, ?_⟩
    rw [e2]
    norm_num [exO]
    ring
  · obtain ⟨n', h4, h5, _, h6, _⟩ := soft_core exO 0 {} (exUsr ℝ) (exVar ℝ) (fun _ => 0) le_rfl le_rfl le_rfl (by norm_num : (0 : ℝ) < 2)
      (scalers_off rfl) h1
    refine ⟨n, n', h1, h3, h4, ?_⟩
    rw [h5, (h6.1 h3).2, mul_zero, add_zero]

/-- C131: a cost that is zero drops the registered term. -/
example : shown (setup exO (cheb exO 0 exA) {} { exUsr ℚ with
    lag := fun _ _ _ _ => 0
    mayer := fun _ _ _ => 0
    costIsZero := true
    norms := [⟨1, fun x _ _ _ _ => x 0, true, fun _ => 0⟩] } 0 2 (exVar ℚ) fun _ => 0) = some (5, 0, 0, [0, 0, -1, -3]) := by decide +kernel

/-- C132: no parameters, no data. -/
example : shown (setup ⟨1, 1, 0, 0, 1, 1⟩ (cheb ⟨1, 1, 0, 0, 1, 1⟩ 0 exA) {} (exUsr ℚ) 0 2 (exVar ℚ) fun _ => 0) = none ∧
    (shown (setup ⟨1, 1, 0, 0, 1, 1⟩ (cheb ⟨1, 1, 0, 0, 1, 1⟩ 1 exA) {} (exUsr ℚ) 0 2 (exVar ℚ) fun _ => 0)).isSome := by decide +kernel

/-- C133: on the horizon `[0, 1]` the two residuals are `1/2`, so the penalty is `ρ (1/2 (1/4 + 1/4)) = ρ / 4`; with the factor `2` for the
state it is four times that. -/
example : shown (setup exO (soft exO 0 exA) { softRho := some 8 } (exUsr ℚ) 0 1 (exVar ℚ) fun _ => 0) = some (5, 0, 5 + 2, [-1, -3]) ∧
    shown (setup exO (soft exO 0 exA) {} (exUsr ℚ) 0 1 (exVar ℚ) fun _ => 0) = some (5, 0, 5 + 250000, [-1, -3]) ∧
    shown (setup exO (soft exO 0 exA) { scaling := some true, scaleX := some [2], softRho := some 8 } (exUsr ℚ) 0 1
      (rescale 1 2 1 2 1 (fun _ => 2) (fun _ => 1) (fun _ => 1) (exVar ℚ)) fun _ => 0) = some (5, 0, 5 + 8, [-1, -3]) := by decide +kernel

/-- C134: two calls without a guess and a solver that answers `7` everywhere: the second call starts from the midpoint `4` and zero controls. -/
example :
    let o : Obj ℚ := (solves (cheb exO 0 exA) ⟨fun _ => 2, fun _ => 1, fun _ => 1⟩ (fun _ => (fun _ => 7, fun _ => 0, fun _ => 0))
      [⟨fun _ => 0, fun _ => 1, none, some fun _ => 9, none⟩, ⟨fun _ => 1, fun _ => 3, none, none, none⟩]
      (construct (assemble false 5 Block.nil (0, fun _ => 0) (0, fun _ => 0) (fun _ => 0) (0 : ℚ)) 0))
    (List.range 5).map o.arg.x0 = [4, 4, 0, 0, 0] ∧ (List.range 5).map o.arg.lbx = [none, some 2, none, none, none] ∧
    (List.range 5).map o.arg.ubx = [none, some 6, none, none, none] ∧ (o.arg.lamX0.map fun f => f 3) = some 9 ∧
    (List.range 5).map o.nlpX = [7, 7, 7, 7, 7] ∧ getTrajectory exO ⟨fun _ => 2, fun _ => 1, fun _ => 1⟩ o 0 1 = 7 / 2 := by decide +kernel

/-- C135: a named parameter in a vector of four, an unknown name, a value of the wrong length. -/
example : let o : Obj ℚ := setMapping "ref" (1, 3) (construct (assemble false 5 Block.nil (0, fun _ => 0) (0, fun _ => 0) (fun _ => 0) (0 : ℚ)) 4)
    (setNamed "ref" 2 (fun i => (i : ℚ) + 5) o).map (fun o => (List.range 4).map o.arg.p) = some [0, 5, 6, 0] ∧
    (setNamed "ref" 1 (fun i => (i : ℚ) + 5) o).map (fun o => (List.range 4).map o.arg.p) = some [0, 5, 5, 0] ∧
    (setNamed "ref" 3 (fun i => (i : ℚ) + 5) o).isNone ∧ (setNamed "rev" 2 (fun i => (i : ℚ) + 5) o).isNone := by decide +kernel

/-- C135: parameters with `MSChebyshev`: one parameter, no data: bounds are not set; two parameters, no data: refused. -/
example : (setParamBox (ms exO 0 exA) ⟨fun _ => 1, fun _ => 1, fun _ => 1⟩ 1 (fun _ => some 1) (fun _ => some 2)
      (construct (assemble false 4 Block.nil (0, fun _ => 0) (0, fun _ => 0) (fun _ => 0) (0 : ℚ)) 0)).map (fun o => (List.range 4).map o.arg.lbx)
      = some [none, none, none, none] ∧
    (setParamBox (ms ⟨1, 1, 2, 0, 1, 1⟩ 0 exA) ⟨fun _ => 1, fun _ => 1, fun _ => 1⟩ 2 (fun _ => some 1) (fun _ => some 2)
      (construct (assemble false 5 Block.nil (0, fun _ => 0) (0, fun _ => 0) (fun _ => 0) (0 : ℚ)) 0)).isNone ∧
    (setParamBox (cheb exO 0 exA) ⟨fun _ => 1, fun _ => 1, fun _ => 1⟩ 1 (fun _ => some 1) (fun _ => some 2)
      (construct (assemble false 5 Block.nil (0, fun _ => 0) (0, fun _ => 0) (fun _ => 0) (0 : ℚ)) 0)).map (fun o => (List.range 5).map o.arg.lbx)
      = some [none, none, none, none, some 1] := by decide +kernel

end PolyMPC.GenOcp
