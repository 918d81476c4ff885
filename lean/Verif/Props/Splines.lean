import Verif.Model.Splines
import Mathlib.LinearAlgebra.Lagrange
import Mathlib.Algebra.Order.Field.Basic
import Mathlib.Data.Rat.Floor
import Mathlib.Data.Fin.VecNotation
import Mathlib.Algebra.BigOperators.Field
import Mathlib.Tactic.Linarith
import Mathlib.Tactic.FieldSimp

/-!
# Splines: Lagrange interpolation (C35) and the equidistant cubic spline (C36)
-/

set_option linter.unusedSectionVars false

namespace PolyMPC.Splines
open Polynomial

/-! ### C35 -/

section
variable {K : Type*} [Field K] [DecidableEq K]

theorem otherNodes_prod {n : ℕ} (nodes : Fin n → K) (i : Fin n) :
    ((otherNodes nodes i).map fun r => (X - C r : K[X])).prod = ∏ j ∈ Finset.univ.erase i, (X - C (nodes j)) := by
  rw [otherNodes, List.map_map]
  have hnd : ((List.finRange n).filter fun j => decide (i ≠ j)).Nodup := (List.nodup_finRange n).filter _
  rw [← List.prod_toFinset _ hnd]
  refine Finset.prod_congr ?_ fun _ _ => rfl
  ext j
  simp [@eq_comm _ i j]

theorem otherNodes_ne_nil {n : ℕ} (hn : 2 ≤ n) (nodes : Fin n → K) (i : Fin n) : otherNodes nodes i ≠ [] := by
  intro h
  have hl : (otherNodes nodes i).length = 0 := by rw [h]; rfl
  obtain ⟨j, hj⟩ : ∃ j : Fin n, i ≠ j := by
    by_cases h0 : i.val = 0
    · exact ⟨⟨1, by omega⟩, fun h => by rw [h] at h0; simp at h0⟩
    · exact ⟨⟨0, by omega⟩, fun h => h0 (by rw [h])⟩
  have : nodes j ∈ otherNodes nodes i := List.mem_map.mpr ⟨j, List.mem_filter.mpr ⟨List.mem_finRange j, by simpa using hj⟩, rfl⟩
  rw [h] at this; simp at this

theorem polyEval_coeff {n : ℕ} {p : K[X]} (hp : p.natDegree < n) (t : K) : polyEval (fun k : Fin n => p.coeff k.val) t = p.eval t := by
  rw [polyEval, eval_eq_sum_range' hp, Fin.sum_univ_eq_sum_range (fun k => p.coeff k * t ^ k) n]

/-- The nodal product without node `i`. -/
noncomputable def others {n : ℕ} (nodes : Fin n → K) (i : Fin n) : K[X] := ∏ j ∈ Finset.univ.erase i, (X - C (nodes j))

theorem others_natDegree {n : ℕ} (nodes : Fin n → K) (i : Fin n) : (others nodes i).natDegree < n := by
  rw [others, natDegree_prod_of_monic _ _ fun j _ => monic_X_sub_C _]
  simp only [natDegree_X_sub_C, Finset.sum_const, smul_eq_mul, mul_one, Finset.card_erase_of_mem (Finset.mem_univ i), Finset.card_univ,
    Fintype.card_fin]
  have := i.isLt; omega

theorem others_eval {n : ℕ} (nodes : Fin n → K) (i : Fin n) (t : K) :
    (others nodes i).eval t = ∏ j ∈ Finset.univ.erase i, (t - nodes j) := by
  simp [others, eval_prod]

theorem basisRow_eq {n : ℕ} (hn : 2 ≤ n) (nodes : Fin n → K) (i : Fin n) :
    basisRow nodes i = if ∏ j ∈ Finset.univ.erase i, (nodes i - nodes j) = 0 then none else
      some fun k => (others nodes i).coeff k.val / ∏ j ∈ Finset.univ.erase i, (nodes i - nodes j) := by
  rw [basisRow, monic, if_neg (otherNodes_ne_nil hn nodes i), Option.bind_some, otherNodes_prod]
  have h : polyEval (fun k : Fin n => (∏ j ∈ Finset.univ.erase i, (X - C (nodes j))).coeff k.val) (nodes i) =
      ∏ j ∈ Finset.univ.erase i, (nodes i - nodes j) := by
    rw [← others_eval, ← polyEval_coeff (others_natDegree nodes i)]; rfl
  rw [h]; rfl

/-- C35. The basis exists exactly when there are at least two nodes and they are distinct. -/
theorem lagrangeBasis_defined {n : ℕ} (hn : 2 ≤ n) (nodes : Fin n → K) :
    (lagrangeBasis nodes).isSome ↔ Function.Injective nodes := by
  have hrow : ∀ i, (basisRow nodes i).isSome ↔ ∀ j, j ≠ i → nodes i ≠ nodes j := by
    intro i
    rw [basisRow_eq hn]
    by_cases h : ∏ j ∈ Finset.univ.erase i, (nodes i - nodes j) = 0
    · rw [if_pos h]
      simp only [Option.isSome_none, Bool.false_eq_true, false_iff]
      obtain ⟨j, hj, hz⟩ := Finset.prod_eq_zero_iff.mp h
      intro hc
      exact hc j (Finset.ne_of_mem_erase hj) (sub_eq_zero.mp hz)
    · rw [if_neg h]
      simp only [Option.isSome_some, true_iff]
      intro j hj he
      exact h (Finset.prod_eq_zero (Finset.mem_erase.mpr ⟨hj, Finset.mem_univ j⟩) (by rw [he, sub_self]))
  unfold lagrangeBasis
  by_cases h : ∀ i, (basisRow nodes i).isSome
  · rw [dif_pos h]
    simp only [Option.isSome_some, true_iff]
    intro i j hij
    by_contra hne
    exact (hrow i).mp (h i) j (Ne.symm hne) hij
  · rw [dif_neg h]
    simp only [Option.isSome_none, Bool.false_eq_true, false_iff]
    intro hinj
    exact h fun i => (hrow i).mpr fun j hj => hinj.ne hj.symm

/-- C35. A single node is undefined: the root vector is empty. -/
theorem lagrangeBasis_single (nodes : Fin 1 → K) : lagrangeBasis nodes = none := by
  have : basisRow nodes 0 = none := by
    simp [basisRow, monic, otherNodes, List.finRange_succ]
  rw [lagrangeBasis, dif_neg]
  intro h
  have := h 0
  simp_all

/-- Evaluation is the Lagrange interpolation formula. -/
theorem lagrangeEval_formula {m n : ℕ} (hn : 2 ≤ n) {nodes : Fin n → K} {B : Fin n → Fin n → K} (hB : lagrangeBasis nodes = some B)
    (values : Fin m → Fin n → K) (t : K) (r : Fin m) :
    lagrangeEval t values B r = ∑ i, values r i * ∏ j ∈ Finset.univ.erase i, ((t - nodes j) / (nodes i - nodes j)) := by
  have hdef : (lagrangeBasis nodes).isSome := by rw [hB]; rfl
  have hinj := (lagrangeBasis_defined hn nodes).mp hdef
  have hBi : ∀ i k, B i k = (others nodes i).coeff k.val / ∏ j ∈ Finset.univ.erase i, (nodes i - nodes j) := by
    intro i k
    unfold lagrangeBasis at hB
    by_cases h : ∀ i, (basisRow nodes i).isSome
    · rw [dif_pos h, Option.some.injEq] at hB
      have h1 := basisRow_eq hn nodes i
      have hne : ¬ ∏ j ∈ Finset.univ.erase i, (nodes i - nodes j) = 0 := by
        intro hz
        obtain ⟨j, hj, hz⟩ := Finset.prod_eq_zero_iff.mp hz
        exact Finset.ne_of_mem_erase hj (hinj (sub_eq_zero.mp hz)).symm
      rw [if_neg hne] at h1
      rw [← hB]
      have h2 : some ((basisRow nodes i).get (h i)) = basisRow nodes i := Option.some_get (h i)
      exact congrFun (Option.some.inj (h2.trans h1)) k
    · rw [dif_neg h] at hB; cases hB
  rw [lagrangeEval, polyEval]
  have : ∀ k : Fin n, (∑ i, values r i * B i k) * t ^ k.val = ∑ i, values r i * (B i k * t ^ k.val) := by
    intro k; rw [Finset.sum_mul]; exact Finset.sum_congr rfl fun i _ => by ring
  rw [Finset.sum_congr rfl fun k _ => this k, Finset.sum_comm]
  refine Finset.sum_congr rfl fun i _ => ?_
  rw [← Finset.mul_sum]
  congr 1
  rw [Finset.prod_div_distrib, ← others_eval, ← polyEval_coeff (others_natDegree nodes i), polyEval, Finset.sum_div]
  exact Finset.sum_congr rfl fun k _ => by rw [hBi]; ring

/-- C35. At a node the stored value is returned. -/
theorem lagrangeEval_node {m n : ℕ} (hn : 2 ≤ n) {nodes : Fin n → K} {B : Fin n → Fin n → K} (hB : lagrangeBasis nodes = some B)
    (values : Fin m → Fin n → K) (k : Fin n) (r : Fin m) : lagrangeEval (nodes k) values B r = values r k := by
  have hinj := (lagrangeBasis_defined hn nodes).mp (by rw [hB]; rfl)
  rw [lagrangeEval_formula hn hB, Finset.sum_eq_single k]
  · rw [Finset.prod_eq_one, mul_one]
    intro j hj
    exact div_self (sub_ne_zero.mpr (hinj.ne (Finset.ne_of_mem_erase hj).symm))
  · intro i _ hik
    rw [Finset.prod_eq_zero (Finset.mem_erase.mpr ⟨hik.symm, Finset.mem_univ k⟩), mul_zero]
    rw [sub_self, zero_div]
  · intro h; exact absurd (Finset.mem_univ k) h

/-- C35. Polynomials of degree below the number of nodes are reproduced at every argument. -/
theorem lagrangeEval_reproduces {m n : ℕ} (hn : 2 ≤ n) {nodes : Fin n → K} {B : Fin n → Fin n → K} (hB : lagrangeBasis nodes = some B)
    (p : Fin m → K[X]) (hp : ∀ r, (p r).natDegree < n) (t : K) (r : Fin m) :
    lagrangeEval t (fun r i => (p r).eval (nodes i)) B r = (p r).eval t := by
  have hinj := (lagrangeBasis_defined hn nodes).mp (by rw [hB]; rfl)
  rw [lagrangeEval_formula hn hB]
  have h := Lagrange.eq_interpolate (f := p r) (v := nodes) (s := Finset.univ) hinj.injOn (by
    rw [Finset.card_univ, Fintype.card_fin]
    exact lt_of_le_of_lt degree_le_natDegree (by exact_mod_cast hp r))
  conv_rhs => rw [h, Lagrange.interpolate_apply, eval_finsetSum]
  refine Finset.sum_congr rfl fun i _ => ?_
  rw [eval_mul, eval_C, Lagrange.basis, eval_prod]
  congr 1
  refine Finset.prod_congr rfl fun j _ => ?_
  rw [Lagrange.basisDivisor]
  simp only [eval_mul, eval_C, eval_sub, eval_X]
  rw [div_eq_inv_mul]

end

/-- Non-vacuity: three nodes, two rows. -/
example : ∃ B, lagrangeBasis (![0, 1, 2] : Fin 3 → ℚ) = some B ∧ lagrangeEval (3 : ℚ) ![![0, 1, 4], ![1, 1, 1]] B = ![9, 1] := by
  have hinj : Function.Injective (![0, 1, 2] : Fin 3 → ℚ) := by decide +kernel
  obtain ⟨B, hB⟩ := Option.isSome_iff_exists.mp ((lagrangeBasis_defined (by norm_num) _).mpr hinj)
  refine ⟨B, hB, ?_⟩
  funext r
  rw [lagrangeEval_formula (by norm_num) hB]
  revert r
  decide +kernel

/-! ### C36 -/

section
variable {K : Type*} [Field K] [LinearOrder K] [IsStrictOrderedRing K] [FloorRing K]

/-- The cubic of segment `k`. -/
def cubic (S : Cubic K) (k : Fin S.cols) (x : K) : K :=
  S.coeffs k 0 + S.coeffs k 1 * x + S.coeffs k 2 * x ^ 2 + S.coeffs k 3 * x ^ 3

theorem Cubic.rawIndex_eq {S : Cubic K} (hl : 0 < S.length) {x : K} {k : ℤ} (h1 : -2 ^ 31 ≤ k) (h2 : k < 2 ^ 31)
    (hx1 : k * S.length ≤ x) (hx2 : x < (k + 1) * S.length) : S.rawIndex x = some k := by
  have : ⌊x / S.length⌋ = k := by
    rw [Int.floor_eq_iff]
    exact ⟨(le_div_iff₀ hl).mpr hx1, (div_lt_iff₀ hl).mpr hx2⟩
  rw [rawIndex, if_neg hl.ne', this, if_neg (by omega)]

/-- C36. Inside the spline the segment containing the argument is used, and its cubic is evaluated at the argument itself (not at the
distance from the start of the segment). -/
theorem Cubic.eval_inside {S : Cubic K} (hl : 0 < S.length) (hc : S.cols ≤ 2 ^ 31) {x : K} (k : Fin S.cols)
    (hx1 : k.val * S.length ≤ x) (hx2 : x < (k.val + 1) * S.length) : S.eval x = some (cubic S k x) := by
  have hk := k.isLt
  have hr : S.rawIndex x = some (k.val : ℤ) := Cubic.rawIndex_eq hl (by omega) (by omega) (by push_cast; exact hx1) (by push_cast; exact hx2)
  have hcl : S.clip k.val = k.val := by unfold clip; omega
  rw [eval, hr, Option.bind_some, dif_pos (by rw [hcl]; exact hk)]
  have hf : (⟨S.clip k.val, by rw [hcl]; exact hk⟩ : Fin S.cols) = k := Fin.ext hcl
  rw [hf, cubic]
  congr 1; ring

/-- C36. To the left of the spline the first segment is extrapolated. -/
theorem Cubic.eval_left {S : Cubic K} (hl : 0 < S.length) (hc : 0 < S.cols) {x : K} (hx : x < 0) (hx2 : -2 ^ 31 * S.length ≤ x) :
    S.eval x = some (cubic S ⟨0, hc⟩ x) := by
  have hneg : ⌊x / S.length⌋ < 0 := by rw [Int.floor_lt]; push_cast; exact div_neg_of_neg_of_pos hx hl
  have hlow : -2 ^ 31 ≤ ⌊x / S.length⌋ := by
    rw [Int.le_floor]; push_cast; exact (le_div_iff₀ hl).mpr (by linarith)
  have hr : S.rawIndex x = some ⌊x / S.length⌋ := by rw [rawIndex, if_neg hl.ne', if_neg (by omega)]
  have hcl : S.clip ⌊x / S.length⌋ = 0 := by unfold clip; omega
  rw [eval, hr, Option.bind_some, dif_pos (by rw [hcl]; exact hc)]
  have hf : (⟨S.clip ⌊x / S.length⌋, by rw [hcl]; exact hc⟩ : Fin S.cols) = ⟨0, hc⟩ := Fin.ext hcl
  rw [hf, cubic]
  congr 1; ring

/-- C36. At or beyond the right end the evaluation reads one column past the last: it is undefined. -/
theorem Cubic.eval_right {S : Cubic K} (hl : 0 < S.length) {x : K} (hx : S.cols * S.length ≤ x) : S.eval x = none := by
  have h : (S.cols : ℤ) ≤ ⌊x / S.length⌋ := by rw [Int.le_floor]; push_cast; exact (le_div_iff₀ hl).mpr hx
  unfold eval rawIndex
  rw [if_neg hl.ne']
  split_ifs with h2
  · rfl
  · rw [Option.bind_some, dif_neg]
    unfold clip; omega

/-- C36. So for arguments whose segment number fits an `int` the evaluation is defined exactly to the left of the end. -/
theorem Cubic.eval_defined_iff {S : Cubic K} (hl : 0 < S.length) (hc : S.cols ≤ 2 ^ 31) (h0 : 0 < S.cols) {x : K}
    (hlow : -2 ^ 31 * S.length ≤ x) : (S.eval x).isSome ↔ x < S.cols * S.length := by
  constructor
  · intro h
    by_contra hge
    rw [Cubic.eval_right hl (not_lt.mp hge)] at h
    simp at h
  · intro hx
    rcases lt_or_ge x 0 with h | h
    · rw [Cubic.eval_left hl h0 h hlow]; rfl
    · have hf0 : 0 ≤ ⌊x / S.length⌋ := Int.floor_nonneg.mpr (div_nonneg h hl.le)
      have hfl : ⌊x / S.length⌋ < S.cols := by
        rw [Int.floor_lt]; push_cast; exact (div_lt_iff₀ hl).mpr hx
      have e : ((⌊x / S.length⌋.toNat : ℕ) : K) = ((⌊x / S.length⌋ : ℤ) : K) := by
        exact_mod_cast congrArg (Int.cast (R := K)) (Int.toNat_of_nonneg hf0)
      have hlt : ⌊x / S.length⌋.toNat < S.cols := by omega
      rw [Cubic.eval_inside hl hc ⟨⌊x / S.length⌋.toNat, hlt⟩]
      · rfl
      · rw [e]; exact (le_div_iff₀ hl).mp (Int.floor_le _)
      · rw [e]; exact (div_lt_iff₀ hl).mp (Int.lt_floor_add_one _)

end

/-- Non-vacuity: two segments of length one; the last point of the domain is undefined. -/
example : (⟨2, ![![0, 1, 0, 0], ![5, 0, 0, 1]], 1⟩ : Cubic ℚ).eval (3 / 2) = some (67 / 8) ∧
    (⟨2, ![![0, 1, 0, 0], ![5, 0, 0, 1]], 1⟩ : Cubic ℚ).eval 2 = none ∧
    (⟨2, ![![0, 1, 0, 0], ![5, 0, 0, 1]], 1⟩ : Cubic ℚ).eval (-1) = some (-1) := by
  decide +kernel

end PolyMPC.Splines
