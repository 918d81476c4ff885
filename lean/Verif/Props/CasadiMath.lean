import Mathlib.RingTheory.Polynomial.Chebyshev
import Mathlib.Analysis.SpecialFunctions.Trigonometric.Chebyshev.Basic
import Mathlib.Algebra.Order.Archimedean.Basic
import Mathlib.Algebra.Order.Floor.Ring
import Mathlib.Analysis.SpecialFunctions.Complex.Arg
import Mathlib.Data.List.GetD
import Mathlib.LinearAlgebra.Lagrange
import Mathlib.Analysis.SpecialFunctions.Exp
import Verif.Model.CasadiMath
import Verif.Spec.CasadiMath
import Verif.Lemmas.LagrangeDiff
import Verif.Props.Chebyshev
import Verif.Props.Splines

/-!
# C60, C92-C96: grids, expansions and small helpers of `polymath`
-/

set_option linter.unusedSectionVars false

namespace PolyMPC.Util
open Polynomial

/-! ### C60: the scaled grid -/

theorem chebX_eq (N : ℕ) : chebX N = Cheb.nodes N := rfl

theorem chebPoints_eq (N : ℕ) (a b : ℝ) (i : Fin (N + 1)) :
    chebPoints N a b i = ((b - a) / 2 * Cheb.nodes N i + (b + a) / 2) + a * ((b - a) / 2 - 1) := by
  rw [chebPoints, chebX_eq]; ring

/-- C60. The grid is the Chebyshev grid of `[a, b]` shifted by `a ((b - a) / 2 - 1)`. -/
theorem cheb_shift {N : ℕ} {a b : ℝ} {pts : Fin (N + 1) → ℝ} {D : Matrix (Fin (N + 1)) (Fin (N + 1)) ℝ} (h : cheb N a b = some (pts, D))
    (i : Fin (N + 1)) :
    pts i = ((b - a) / 2 * Real.cos (i.val * (Real.pi / N)) + (b + a) / 2) + a * ((b - a) / 2 - 1) := by
  unfold cheb at h
  split_ifs at h
  rw [Option.some.injEq, Prod.mk.injEq] at h
  rw [← h.1, chebPoints_eq]; rfl

/-- C60. The nodes lie in the requested interval exactly if it starts at zero or has length two. -/
theorem cheb_inside_iff {N : ℕ} {a b : ℝ} (hab : a < b) {pts : Fin (N + 1) → ℝ} {D : Matrix (Fin (N + 1)) (Fin (N + 1)) ℝ}
    (h : cheb N a b = some (pts, D)) : (∀ i, pts i ∈ Set.Icc a b) ↔ a = 0 ∨ b - a = 2 := by
  have hN : 1 ≤ N := by
    by_contra hN
    rw [cheb, if_pos (Or.inl (by omega))] at h
    cases h
  have hs := cheb_shift h
  have hn : ∀ i : Fin (N + 1), Real.cos (i.val * (Real.pi / N)) = Cheb.nodes N i := fun _ => rfl
  simp only [hn] at hs
  constructor
  · intro hin
    have h0 := (hin 0).2
    have h1 := (hin (Fin.last N)).1
    rw [hs, (Cheb.nodes_ends hN).1] at h0
    rw [hs, (Cheb.nodes_ends hN).2] at h1
    have hz : a * ((b - a) / 2 - 1) = 0 := by nlinarith
    rcases mul_eq_zero.mp hz with hz | hz
    · exact Or.inl hz
    · right; linarith
  · intro hc i
    have hz : a * ((b - a) / 2 - 1) = 0 := by
      rcases hc with hc | hc
      · rw [hc, zero_mul]
      · rw [hc]; norm_num
    have hm := Cheb.nodes_mem (N := N) i
    rw [hs, hz]
    constructor <;> nlinarith [hm.1, hm.2]

/-- C60. Exactly then the end points of the interval are the first and last node. -/
theorem cheb_ends_iff {N : ℕ} {a b : ℝ} {pts : Fin (N + 1) → ℝ} {D : Matrix (Fin (N + 1)) (Fin (N + 1)) ℝ}
    (h : cheb N a b = some (pts, D)) : (pts 0 = b ∧ pts (Fin.last N) = a) ↔ a = 0 ∨ b - a = 2 := by
  have hN : 1 ≤ N := by
    by_contra hN
    rw [cheb, if_pos (Or.inl (by omega))] at h
    cases h
  have hs := cheb_shift h
  have hn : ∀ i : Fin (N + 1), Real.cos (i.val * (Real.pi / N)) = Cheb.nodes N i := fun _ => rfl
  simp only [hn] at hs
  rw [hs, hs, (Cheb.nodes_ends hN).1, (Cheb.nodes_ends hN).2]
  constructor
  · rintro ⟨h1, _⟩
    have hz : a * ((b - a) / 2 - 1) = 0 := by linarith
    rcases mul_eq_zero.mp hz with hz | hz
    · exact Or.inl hz
    · right; linarith
  · intro hc
    have hz : a * ((b - a) / 2 - 1) = 0 := by
      rcases hc with hc | hc
      · rw [hc, zero_mul]
      · rw [hc]; norm_num
    rw [hz]
    constructor <;> ring

/-- The matrix is the one of the reference interval divided by half the length. -/
theorem cheb_matrix {N : ℕ} {a b : ℝ} {pts : Fin (N + 1) → ℝ} {D : Matrix (Fin (N + 1)) (Fin (N + 1)) ℝ} (h : cheb N a b = some (pts, D))
    {i j : Fin (N + 1)} (hij : i ≠ j) : D i j = Cheb.diffMatrix N i j * ((b - a) / 2)⁻¹ := by
  unfold cheb at h
  split_ifs at h with hc
  rw [Option.some.injEq, Prod.mk.injEq] at h
  rw [← h.2, Cheb.diffMatrix, Matrix.sub_apply, Matrix.sub_apply, Matrix.diagonal_apply_ne _ hij, Matrix.diagonal_apply_ne _ hij,
    sub_zero, sub_zero, chebDn, Matrix.of_apply, Cheb.Dn, Matrix.of_apply, if_neg hij, add_zero, add_zero, chebPoints_eq, chebPoints_eq]
  have e : (b - a) / 2 * Cheb.nodes N i + (b + a) / 2 + a * ((b - a) / 2 - 1)
      - ((b - a) / 2 * Cheb.nodes N j + (b + a) / 2 + a * ((b - a) / 2 - 1)) = (Cheb.nodes N i - Cheb.nodes N j) * ((b - a) / 2) := by ring
  rw [e, div_eq_mul_inv, mul_inv, one_div, ← mul_assoc]
  rfl

/-- C60. Whatever the interval, the matrix differentiates every polynomial of degree at most `N` on the nodes that are returned. -/
theorem cheb_differentiates {N : ℕ} {a b : ℝ} {pts : Fin (N + 1) → ℝ} {D : Matrix (Fin (N + 1)) (Fin (N + 1)) ℝ}
    (h : cheb N a b = some (pts, D)) {p : ℝ[X]} (hp : p.natDegree ≤ N) (i : Fin (N + 1)) :
    ∑ j, D i j * p.eval (pts j) = (derivative p).eval (pts i) := by
  have hN : 1 ≤ N := by
    by_contra hN
    rw [cheb, if_pos (Or.inl (by omega))] at h
    cases h
  have hab : (b - a) / 2 ≠ 0 := by
    intro hz
    rw [cheb, if_pos (Or.inr (by linarith))] at h
    cases h
  have hpt : ∀ i, pts i = (b - a) / 2 * Cheb.nodes N i + ((b + a) / 2 + a * ((b - a) / 2 - 1)) := by
    intro i
    rw [cheb_shift h]
    have : Real.cos (i.val * (Real.pi / N)) = Cheb.nodes N i := rfl
    rw [this]; ring
  -- the reference polynomial
  let q : ℝ[X] := p.comp (C ((b - a) / 2) * X + C ((b + a) / 2 + a * ((b - a) / 2 - 1)))
  have hq : q.natDegree ≤ N := by
    refine natDegree_comp_le.trans ?_
    have : (C ((b - a) / 2) * X + C ((b + a) / 2 + a * ((b - a) / 2 - 1)) : ℝ[X]).natDegree ≤ 1 := natDegree_linear_le
    nlinarith
  have hqe : ∀ j, q.eval (Cheb.nodes N j) = p.eval (pts j) := by
    intro j; rw [hpt]; simp [q, eval_comp]
  have hqd : (derivative q).eval (Cheb.nodes N i) = (b - a) / 2 * (derivative p).eval (pts i) := by
    rw [hpt]
    simp [q, derivative_comp, eval_comp]
  have hmain := Cheb.diffMatrix_exact hN hq i
  rw [hqd] at hmain
  simp only [hqe] at hmain
  -- the diagonal through the row sums
  have hrow : ∑ j, D i j = 0 := by
    unfold cheb at h
    split_ifs at h with hc
    rw [Option.some.injEq, Prod.mk.injEq] at h
    rw [← h.2]
    simp [Matrix.sub_apply, Finset.sum_sub_distrib, Matrix.diagonal_apply]
  have hD : ∀ j, D i j = Cheb.diffMatrix N i j * ((b - a) / 2)⁻¹ := by
    intro j
    by_cases hij : i = j
    · subst hij
      have h1 := hrow
      have h2 := Cheb.diffMatrix_row_sum (N := N) i
      rw [← Finset.add_sum_erase _ _ (Finset.mem_univ i)] at h1 h2
      have h3 : ∑ j ∈ Finset.univ.erase i, D i j = (∑ j ∈ Finset.univ.erase i, Cheb.diffMatrix N i j) * ((b - a) / 2)⁻¹ := by
        rw [Finset.sum_mul]
        exact Finset.sum_congr rfl fun j hj => cheb_matrix h (Finset.ne_of_mem_erase hj).symm
      rw [h3] at h1
      linear_combination h1 - ((b - a) / 2)⁻¹ * h2
    · exact cheb_matrix h hij
  have : ∑ j, D i j * p.eval (pts j) = (∑ j, Cheb.diffMatrix N i j * p.eval (pts j)) * ((b - a) / 2)⁻¹ := by
    rw [Finset.sum_mul]
    exact Finset.sum_congr rfl fun j _ => by rw [hD]; ring
  rw [this, hmain, mul_comm ((b - a) / 2), mul_assoc, mul_inv_cancel₀ hab, mul_one]

/-- Non-vacuity: two nodes on `[1, 2]` come out as `1.5` and `0.5`, on `[0, 3]` as `3` and `0`. -/
example : (∃ D, cheb 1 1 2 = some (chebPoints 1 1 2, D)) ∧ chebPoints 1 1 2 = ![3 / 2, 1 / 2] ∧ chebPoints 1 0 3 = ![3, 0] := by
  refine ⟨⟨_, by rw [cheb, if_neg (by norm_num)]⟩, ?_, ?_⟩ <;>
    · funext i
      fin_cases i <;> simp [chebPoints, chebX] <;> norm_num

/-! ### C92: the two Chebyshev expansions -/

section
variable {K : Type*} [Field K]

/-- The table holds the values of the Chebyshev polynomials. -/
theorem expansionTable_spec (x : K) (m : ℕ) :
    let T := (List.range m).foldl (fun T j => T ++ [2 * x * T.getD (j + 1) 0 - T.getD j 0]) [1, x]
    T.length = m + 2 ∧ ∀ i < m + 2, T.getD i 0 = (Chebyshev.T K i).eval x := by
  induction m with
  | zero =>
    refine ⟨rfl, ?_⟩
    intro i hi
    interval_cases i
    · simp
    · simp
  | succ m ih =>
    obtain ⟨h1, h2⟩ := ih
    simp only [List.range_succ, List.foldl_append, List.foldl_cons, List.foldl_nil]
    generalize (List.range m).foldl (fun T j => T ++ [2 * x * T.getD (j + 1) 0 - T.getD j 0]) [1, x] = T at h1 h2
    refine ⟨by simp [h1], ?_⟩
    intro i hi
    by_cases hlt : i < m + 2
    · rw [List.getD_append _ _ _ _ (by omega)]
      exact h2 i hlt
    · have hi' : i = m + 2 := by omega
      subst hi'
      rw [List.getD_append_right _ _ _ _ (by omega), h1, Nat.sub_self, List.getD_cons_zero, h2 _ (by omega), h2 _ (by omega)]
      have := Chebyshev.T_add_two K m
      have e : (((m + 2 : ℕ) : ℤ)) = (m : ℤ) + 2 := by push_cast; ring
      have e1 : (((m + 1 : ℕ) : ℤ)) = (m : ℤ) + 1 := by push_cast; ring
      rw [e, e1, this]
      simp

theorem foldl_sum {M : Type*} [AddCommMonoid M] (g : ℕ → M) (n : ℕ) (v : M) :
    (List.range n).foldl (fun r i => r + g i) v = v + ∑ i ∈ Finset.range n, g i := by
  induction n with
  | zero => simp
  | succ n ih => rw [List.range_succ, List.foldl_append, ih, Finset.sum_range_succ]; simp [add_assoc]

/-- C92. The recurrence version returns the Chebyshev series of the given coefficients at every argument. -/
theorem chebyshevExpansion_eq {f : List K} (hf : f ≠ []) (x : K) :
    chebyshevExpansion f x = some (∑ i : Fin f.length, (Chebyshev.T K i.val).eval x * f[i]) := by
  rw [chebyshevExpansion, if_neg hf, foldl_sum (fun i => (expansionTable x f.length).getD i 0 * f.getD i 0), zero_add,
    Finset.sum_range]
  congr 1
  refine Finset.sum_congr rfl fun i _ => ?_
  have h := (expansionTable_spec x (f.length - 2)).2 i.val (by have := i.isLt; omega)
  rw [expansionTable, h]
  congr 1
  simp

end

/-- C92. The trigonometric version agrees with it on `[-1, 1]`. -/
theorem chebyshevExpansion2_eq (f : List ℝ) {x : ℝ} (hx : x ∈ Set.Icc (-1 : ℝ) 1) : chebyshevExpansion2 f x = chebyshevExpansion f x := by
  by_cases hf : f = []
  · rw [chebyshevExpansion2, chebyshevExpansion, if_pos hf, if_pos hf]
  · rw [chebyshevExpansion_eq hf, chebyshevExpansion2, if_neg hf, if_neg (by
      rintro (h | h)
      · linarith [hx.1]
      · linarith [hx.2]), foldl_sum (fun k => Real.cos (k * Real.arccos x) * f.getD k 0), zero_add, Finset.sum_range]
    congr 1
    refine Finset.sum_congr rfl fun i _ => ?_
    have := Cheb.evalT_eq hx i.val
    rw [Cheb.evalT] at this
    rw [this]
    simp

/-- C92. Outside only the recurrence version is defined. -/
theorem chebyshevExpansion2_outside (f : List ℝ) {x : ℝ} (hx : x ∉ Set.Icc (-1 : ℝ) 1) :
    chebyshevExpansion2 f x = none ∧ (f ≠ [] → (chebyshevExpansion f x).isSome) := by
  constructor
  · rw [chebyshevExpansion2]
    split_ifs with h1 h2
    · rfl
    · rfl
    · exact absurd ⟨not_lt.mp fun h => h2 (Or.inl h), not_lt.mp fun h => h2 (Or.inr h)⟩ hx
  · intro hf
    rw [chebyshevExpansion_eq hf]; rfl

/-- Non-vacuity: `1 + 2 x + 3 (2x²-1) + 4 (4x³-3x)` at `x = 2`. -/
example : chebyshevExpansion [1, 2, 3, 4] (2 : ℚ) = some 130 := by decide +kernel

/-! ### C93: the factorial -/

theorem factorial_fold (n : ℕ) :
    (List.range n).foldl (fun fact i => fact * UInt32.ofNat (i + 1)) 1 = UInt32.ofNat n.factorial := by
  induction n with
  | zero => rfl
  | succ n ih =>
    rw [List.range_succ, List.foldl_append, ih, Nat.factorial_succ, mul_comm (n + 1)]
    simp only [List.foldl_cons, List.foldl_nil]
    rw [UInt32.ofNat_mul]

/-- C93. The result is the factorial modulo `2³²`. -/
theorem factorial_eq {n : ℕ} (hn : n < 2 ^ 31 - 1) : (factorial n).map UInt32.toNat = some (n.factorial % 2 ^ 32) := by
  rw [factorial, if_neg (by omega), Option.map_some, factorial_fold, UInt32.toNat_ofNat']

/-- C93. It is the factorial exactly for arguments up to twelve, and zero from thirty-four on. -/
theorem factorial_exact_iff {n : ℕ} (hn : n < 2 ^ 31 - 1) : (factorial n).map UInt32.toNat = some n.factorial ↔ n ≤ 12 := by
  rw [factorial_eq hn, Option.some.injEq]
  constructor
  · intro h
    by_contra hgt
    have h13 : Nat.factorial 13 ≤ n.factorial := Nat.factorial_le (by omega)
    have hlt : n.factorial % 2 ^ 32 < 2 ^ 32 := Nat.mod_lt _ (by norm_num)
    rw [h] at hlt
    have : Nat.factorial 13 = 6227020800 := by decide
    omega
  · intro h
    refine Nat.mod_eq_of_lt ?_
    have h12 : n.factorial ≤ Nat.factorial 12 := Nat.factorial_le h
    have : Nat.factorial 12 = 479001600 := by decide
    omega

theorem factorial_zero {n : ℕ} (h34 : 34 ≤ n) (hn : n < 2 ^ 31 - 1) : factorial n = some 0 := by
  have h : (2 ^ 32) ∣ n.factorial := by
    have h1 : Nat.factorial 34 ∣ n.factorial := Nat.factorial_dvd_factorial h34
    exact Dvd.dvd.trans (by decide) h1
  rw [factorial, if_neg (by omega), factorial_fold]
  congr 1
  apply UInt32.toNat.inj
  rw [UInt32.toNat_ofNat', Nat.mod_eq_zero_of_dvd h]
  rfl

/-- Non-vacuity: thirteen factorial comes out as 1932053504. -/
example : factorial 5 = some 120 ∧ factorial 13 = some 1932053504 := by
  constructor <;> · rw [factorial, if_neg (by norm_num)]; decide +kernel

/-! ### C94: ranges -/

section
variable {K : Type*} [Field K] [LinearOrder K] [IsStrictOrderedRing K]

theorem rangeLoop_stops (last step : K) (n : ℕ) : ∀ (v : K) (acc : List K), (∀ k < n, v + k * step ≤ last) → last < v + n * step →
    rangeLoop last step (n + 1) v acc = some (acc ++ (List.range n).map fun k : ℕ => v + k * step) := by
  induction n with
  | zero =>
    intro v acc _ h
    rw [rangeLoop, if_neg (by simpa using h)]
    simp
  | succ n ih =>
    intro v acc h1 h2
    rw [rangeLoop, if_pos (by simpa using h1 0 (by omega)), ih (v + step) (acc ++ [v])]
    · rw [List.range_succ_eq_map, List.map_cons, List.map_map, List.append_assoc]
      simp only [List.singleton_append, Nat.cast_zero, zero_mul, add_zero]
      congr 4
      funext k
      simp only [Function.comp]
      push_cast; ring
    · intro k hk
      have := h1 (k + 1) (by omega)
      push_cast at this
      linarith
    · push_cast at h2
      linarith

theorem rangeLoop_mono (last step : K) (n : ℕ) : ∀ (m : ℕ) (v : K) (acc r : List K), rangeLoop last step n v acc = some r →
    rangeLoop last step (n + m) v acc = some r := by
  induction n with
  | zero => intro m v acc r h; cases h
  | succ n ih =>
    intro m v acc r h
    rw [show n + 1 + m = (n + m) + 1 by omega, rangeLoop]
    rw [rangeLoop] at h
    split_ifs at h ⊢
    · exact ih m _ _ _ h
    · exact h

/-- C94. With a positive step the call ends, with the terms of the arithmetic progression that do not exceed the last value. -/
theorem range_positive [Archimedean K] {first last step : K} (hs : 0 < step) (r : List K) :
    RangeReturns first last step r ↔
      ∃ n : ℕ, r = (List.range n).map (fun k : ℕ => first + k * step) ∧ ∀ k : ℕ, first + k * step ≤ last ↔ k < n := by
  classical
  obtain ⟨m, hm⟩ := Archimedean.arch (last - first + step) hs
  have hex : ∃ n : ℕ, last < first + n * step := ⟨m, by rw [nsmul_eq_mul] at hm; linarith⟩
  obtain ⟨n, hn⟩ : ∃ n, n = Nat.find hex := ⟨_, rfl⟩
  have h1 : last < first + n * step := hn ▸ Nat.find_spec hex
  have h2 : ∀ k < n, first + k * step ≤ last := fun k hk => not_lt.mp (Nat.find_min hex (hn ▸ hk))
  have h3 : ∀ k : ℕ, first + k * step ≤ last ↔ k < n := by
    intro k
    refine ⟨fun h => ?_, h2 k⟩
    by_contra hk
    have : (n : K) ≤ k := by exact_mod_cast not_lt.mp hk
    nlinarith
  have hrun := rangeLoop_stops last step n first [] h2 h1
  rw [List.nil_append] at hrun
  constructor
  · rintro ⟨fuel, hf⟩
    refine ⟨n, ?_, h3⟩
    have e1 := rangeLoop_mono last step fuel (n + 1) first [] r hf
    have e2 := rangeLoop_mono last step (n + 1) fuel first [] _ hrun
    rw [add_comm, e1] at e2
    exact Option.some.inj e2
  · rintro ⟨n', rfl, h4⟩
    have : n' = n := by
      rcases lt_trichotomy n' n with h | h | h
      · exact absurd ((h4 n').mp ((h3 n').mpr h)) (lt_irrefl _)
      · exact h
      · exact absurd ((h3 n).mp ((h4 n).mpr h)) (lt_irrefl _)
    subst this
    exact ⟨n' + 1, hrun⟩

/-- C94. With a step that is not positive it returns the empty list when the first value exceeds the last, and otherwise never returns. -/
theorem range_nonpositive {first last step : K} (hs : step ≤ 0) (r : List K) : RangeReturns first last step r ↔ last < first ∧ r = [] := by
  constructor
  · rintro ⟨fuel, h⟩
    by_cases hlt : last < first
    · refine ⟨hlt, ?_⟩
      cases fuel with
      | zero => cases h
      | succ n => rw [rangeLoop, if_neg (not_le.mpr hlt)] at h; exact (Option.some.inj h).symm
    · exfalso
      have : ∀ (n : ℕ) (v : K) (acc : List K), v ≤ last → rangeLoop last step n v acc = none := by
        intro n
        induction n with
        | zero => intro v acc _; rfl
        | succ n ih => intro v acc hv; rw [rangeLoop, if_pos hv]; exact ih _ _ (by linarith)
      rw [this fuel first [] (not_lt.mp hlt)] at h
      cases h
  · rintro ⟨hlt, rfl⟩
    exact ⟨1, by rw [rangeLoop, if_neg (not_le.mpr hlt)]⟩

end

/-- Non-vacuity. -/
example : RangeReturns (0 : ℚ) 1 (2 / 5) [0, 2 / 5, 4 / 5] ∧ ∀ r, ¬ RangeReturns (0 : ℚ) 1 0 r := by
  refine ⟨⟨4, by decide +kernel⟩, fun r h => ?_⟩
  have := ((range_nonpositive (le_refl (0 : ℚ)) r).mp h).1
  norm_num at this

/-! ### C95: the Lagrange helpers -/

section
variable {K : Type*} [Field K] [DecidableEq K]

/-- C95. `lagrange_poly` is defined for basis index `k` exactly if node `k` differs from all others, and then returns the value of the
`k`-th Lagrange basis polynomial. -/
theorem lagrangePoly_eq {n : ℕ} (t : K) (nodes : Fin (n + 1) → K) (k : Fin (n + 1)) :
    lagrangePoly t nodes k =
      if ∀ j, j ≠ k → nodes j ≠ nodes k then some ((Lagrange.basis Finset.univ nodes k).eval t) else none := by
  have gen : ∀ (l : List (Fin (n + 1))) (acc : K), l.foldlM (fun acc j =>
      if j = k then some acc else if nodes k - nodes j = 0 then none else some (acc * ((t - nodes j) / (nodes k - nodes j)))) acc =
      if ∀ j ∈ l, j ≠ k → nodes j ≠ nodes k then some (acc * ((l.filter (fun j => decide (j ≠ k))).map fun j =>
        (t - nodes j) / (nodes k - nodes j)).prod) else none := by
    intro l
    induction l with
    | nil => intro acc; simp
    | cons j l ih =>
      intro acc
      rw [List.foldlM_cons]
      by_cases hj : j = k
      · rw [if_pos hj]
        simp only [Option.bind_eq_bind, Option.bind_some]
        rw [ih]
        simp [hj]
      · rw [if_neg hj]
        by_cases hz : nodes k - nodes j = 0
        · rw [if_pos hz, if_neg]
          · rfl
          · intro h
            exact h j (by simp) hj (sub_eq_zero.mp hz).symm
        · rw [if_neg hz]
          simp only [Option.bind_eq_bind, Option.bind_some]
          rw [ih]
          have hne : nodes j ≠ nodes k := fun h => hz (by rw [h, sub_self])
          have e : (∀ i ∈ j :: l, i ≠ k → nodes i ≠ nodes k) ↔ ∀ i ∈ l, i ≠ k → nodes i ≠ nodes k := by
            simp [hne]
          simp only [e, hj, ne_eq, not_false_eq_true, decide_true, List.filter_cons_of_pos, List.map_cons, List.prod_cons, mul_assoc]
  rw [lagrangePoly, gen]
  have hmem : (∀ j ∈ List.finRange (n + 1), j ≠ k → nodes j ≠ nodes k) ↔ ∀ j, j ≠ k → nodes j ≠ nodes k := by simp
  simp only [hmem]
  split_ifs with h
  · congr 1
    rw [one_mul, Lagrange.basis, eval_prod, ← List.prod_toFinset]
    · refine Finset.prod_congr ?_ fun j _ => ?_
      · ext j; simp
      · rw [Lagrange.basisDivisor]
        simp only [eval_mul, eval_C, eval_sub, eval_X]
        rw [div_eq_inv_mul]
    · exact (List.nodup_finRange _).filter _
  · rfl

/-- The stored coefficients evaluate to the Lagrange interpolant. -/
theorem combine_eval {n : ℕ} (hn : 2 ≤ n) {nodes : Fin n → K} {B : Fin n → Fin n → K} (hB : Splines.lagrangeBasis nodes = some B)
    (values : Fin n → K) (t : K) :
    Splines.polyEval (combine values B) t = (Lagrange.interpolate Finset.univ nodes values).eval t := by
  have h := Splines.lagrangeEval_formula (m := 1) hn hB (fun _ => values) t 0
  rw [Splines.lagrangeEval] at h
  rw [show combine values B = fun k => ∑ i, values i * B i k from rfl, h, Lagrange.interpolate_apply, eval_finsetSum]
  refine Finset.sum_congr rfl fun i _ => ?_
  rw [eval_mul, eval_C, Lagrange.basis, eval_prod]
  congr 1
  refine Finset.prod_congr rfl fun j _ => ?_
  rw [Lagrange.basisDivisor]
  simp only [eval_mul, eval_C, eval_sub, eval_X]
  rw [div_eq_inv_mul]

/-- C95. After `init` with two or more distinct nodes, `eval` is the interpolating polynomial. -/
theorem init_eval {n : ℕ} (hn : 2 ≤ n) {nodes : Fin n → K} (hinj : Function.Injective nodes) (values : Fin n → K) :
    ∃ S, Interpolator.init nodes values = some S ∧
      ∀ t, S.eval t = some ((Lagrange.interpolate Finset.univ nodes values).eval t) := by
  obtain ⟨B, hB⟩ := Option.isSome_iff_exists.mp ((Splines.lagrangeBasis_defined hn nodes).mpr hinj)
  refine ⟨_, by rw [Interpolator.init, dif_pos rfl, hB]; rfl, ?_⟩
  intro t
  rw [Interpolator.eval, if_neg (by show ¬ n = 0; omega)]
  congr 1
  exact combine_eval hn hB values t

/-- C95. `update_basis` alone changes nothing that `eval(arg)` returns: it keeps evaluating the polynomial of the old nodes. -/
theorem updateBasis_stale {n : ℕ} {S S' : Interpolator K} {nodes : Fin n → K} (h : S.updateBasis nodes = some S') (t : K) :
    S'.eval t = S.eval t := by
  rw [Interpolator.updateBasis] at h
  cases hB : Splines.lagrangeBasis nodes with
  | none => rw [hB] at h; cases h
  | some B =>
    rw [hB, Option.map_some, Option.some.injEq] at h
    rw [← h]; rfl

/-- C95. With values, the CasADi overload interpolates on the new nodes, and later calls without values use the same polynomial. -/
theorem evalDM_after_update {n : ℕ} (hn : 2 ≤ n) {nodes : Fin n → K} {S S' : Interpolator K} (h : S.updateBasis nodes = some S')
    (values : Fin n → K) (t : K) :
    ∃ S'', S'.evalDM t values = some ((Lagrange.interpolate Finset.univ nodes values).eval t, S'') ∧
      ∀ s, S''.eval s = some ((Lagrange.interpolate Finset.univ nodes values).eval s) := by
  rw [Interpolator.updateBasis] at h
  cases hB : Splines.lagrangeBasis nodes with
  | none => rw [hB] at h; cases h
  | some B =>
    rw [hB, Option.map_some, Option.some.injEq] at h
    subst h
    have hev : ∀ s, (⟨n, B, n, combine values B⟩ : Interpolator K).eval s = some ((Lagrange.interpolate Finset.univ nodes values).eval s) := by
      intro s
      rw [Interpolator.eval, if_neg (by show ¬ n = 0; omega)]
      exact congrArg some (combine_eval hn hB values s)
    refine ⟨⟨n, B, n, combine values B⟩, ?_, hev⟩
    rw [Interpolator.evalDM, dif_pos rfl]
    show Option.map _ ((⟨n, B, n, combine values B⟩ : Interpolator K).eval t) = _
    rw [hev]; rfl

/-- C95. The Eigen overload does the same only while the number of nodes stays what it was when the coefficients were last computed;
otherwise its assertion fails, although the values match the new nodes. -/
theorem evalEigen_after_update {n : ℕ} {nodes : Fin n → K} {S S' : Interpolator K} (h : S.updateBasis nodes = some S')
    (values : Fin n → K) (t : K) : S'.evalEigen t values = if S.m = n then S'.evalDM t values else none := by
  have hm : S'.m = S.m := by
    rw [Interpolator.updateBasis] at h
    cases hB : Splines.lagrangeBasis nodes with
    | none => rw [hB] at h; cases h
    | some B => rw [hB, Option.map_some, Option.some.injEq] at h; rw [← h]
  rw [Interpolator.evalEigen, hm]

end

/-- Non-vacuity: `x²` on three nodes, then two new nodes: `eval` still squares, the Eigen overload asserts, the other one interpolates. -/
example : ∃ S S' : Interpolator ℚ, Interpolator.init (![0, 1, 2] : Fin 3 → ℚ) ![0, 1, 4] = some S ∧ S.eval 3 = some 9 ∧
    S.updateBasis (![0, 2] : Fin 2 → ℚ) = some S' ∧ S'.eval 3 = some 9 ∧ S'.evalEigen 3 (![0, 4] : Fin 2 → ℚ) = none ∧
    (S'.evalDM 3 (![0, 4] : Fin 2 → ℚ)).map Prod.fst = some 6 := by
  have hi : Function.Injective (![0, 1, 2] : Fin 3 → ℚ) := by decide +kernel
  have hj : Function.Injective (![0, 2] : Fin 2 → ℚ) := by decide +kernel
  obtain ⟨S, hS, hev⟩ := init_eval (by norm_num) hi ![0, 1, 4]
  obtain ⟨B, hB⟩ := Option.isSome_iff_exists.mp ((Splines.lagrangeBasis_defined (by norm_num) _).mpr hj)
  have hU : S.updateBasis (![0, 2] : Fin 2 → ℚ) = some ⟨2, B, S.m, S.coef⟩ := by rw [Interpolator.updateBasis, hB]; rfl
  have e9 : S.eval 3 = some 9 := by
    rw [hev]
    congr 1
    simp [Lagrange.interpolate_apply, Fin.sum_univ_three, Lagrange.basis, Lagrange.basisDivisor,
      show (Finset.univ : Finset (Fin 3)).erase 1 = {0, 2} by decide, show (Finset.univ : Finset (Fin 3)).erase 2 = {0, 1} by decide]
    norm_num
  have hm : S.m = 3 := by
    rw [Interpolator.init, dif_pos rfl] at hS
    cases hB3 : Splines.lagrangeBasis (![0, 1, 2] : Fin 3 → ℚ) with
    | none => rw [hB3] at hS; cases hS
    | some B3 => rw [hB3, Option.map_some, Option.some.injEq] at hS; rw [← hS]
  refine ⟨S, _, hS, e9, hU, by rw [updateBasis_stale hU, e9], ?_, ?_⟩
  · rw [evalEigen_after_update hU, if_neg (by rw [hm]; norm_num)]
  · obtain ⟨S'', h, _⟩ := evalDM_after_update (by norm_num) hU ![0, 4] 3
    rw [h, Option.map_some]
    congr 1
    simp [Lagrange.interpolate_apply, Fin.sum_univ_two, Lagrange.basis, Lagrange.basisDivisor,
      show (Finset.univ : Finset (Fin 2)).erase 1 = {0} by decide]
    norm_num

/-! ### C96: the smooth step and spherical coordinates -/

/-- C96. The smooth step with positive height stays strictly between zero and the height, is strictly increasing, takes half the height at
zero and is point symmetric about it. -/
theorem heaviside_shape {k : ℝ} (hk : 0 < k) :
    (∀ x, 0 < heaviside x k ∧ heaviside x k < k) ∧ StrictMono (fun x => heaviside x k) ∧ heaviside 0 k = k / 2 ∧
    ∀ x, heaviside x k + heaviside (-x) k = k := by
  have hp : ∀ x : ℝ, 0 < 1 + Real.exp (-4 * x) := fun x => by positivity
  refine ⟨fun x => ⟨div_pos hk (hp x), ?_⟩, ?_, ?_, ?_⟩
  · rw [heaviside, div_lt_iff₀ (hp x)]
    nlinarith [Real.exp_pos (-4 * x)]
  · intro x y hxy
    simp only [heaviside]
    refine div_lt_div_of_pos_left hk (hp y) ?_
    have : Real.exp (-4 * y) < Real.exp (-4 * x) := Real.exp_lt_exp.mpr (by linarith)
    linarith
  · rw [heaviside]; norm_num
  · intro x
    rw [heaviside, heaviside]
    have h1 := (hp x).ne'
    have h2 := (hp (-x)).ne'
    have e : Real.exp (-4 * x) * Real.exp (-4 * -x) = 1 := by rw [← Real.exp_add]; simp
    rw [div_add_div _ _ h1 h2, div_eq_iff (mul_ne_zero h1 h2)]
    linear_combination (-k) * e

/-- C96. The Cartesian vector has the given radius as its length. -/
theorem spheric2cart_norm (az el r : ℝ) : spheric2cart az el r ⬝ᵥ spheric2cart az el r = r ^ 2 := by
  simp only [spheric2cart, dotProduct, Fin.sum_univ_three, Matrix.cons_val]
  linear_combination r ^ 2 * Real.cos el ^ 2 * Real.sin_sq_add_cos_sq az + r ^ 2 * Real.sin_sq_add_cos_sq el

/-- C96. Every vector is reached, with a radius that is not negative and an elevation of at most a quarter turn. -/
theorem spheric2cart_surjective (v : Fin 3 → ℝ) :
    ∃ az el r, 0 ≤ r ∧ -(Real.pi / 2) ≤ el ∧ el ≤ Real.pi / 2 ∧ spheric2cart az el r = v := by
  let z : ℂ := ⟨v 0, v 1⟩
  let w : ℂ := ⟨‖z‖, v 2⟩
  have hw : 0 ≤ w.re := norm_nonneg z
  have hel := abs_le.mp (Complex.abs_arg_le_pi_div_two_iff.mpr hw)
  refine ⟨z.arg, w.arg, ‖w‖, norm_nonneg _, hel.1, hel.2, ?_⟩
  have h1 : ‖w‖ * Real.cos w.arg = ‖z‖ := Complex.norm_mul_cos_arg w
  have h2 : ‖w‖ * Real.sin w.arg = v 2 := Complex.norm_mul_sin_arg w
  have h3 : ‖z‖ * Real.cos z.arg = v 0 := Complex.norm_mul_cos_arg z
  have h4 : ‖z‖ * Real.sin z.arg = v 1 := Complex.norm_mul_sin_arg z
  rw [spheric2cart, h1, h2, h3, h4]
  funext i
  fin_cases i <;> rfl

end PolyMPC.Util
