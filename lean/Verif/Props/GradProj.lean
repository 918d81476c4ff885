import Verif.Model.GradProj
import Mathlib.Tactic.Linarith
import Mathlib.Tactic.NormNum
import Mathlib.Tactic.Positivity
import Mathlib.Tactic.IntervalCases
import Mathlib.Tactic.FinCases
import Mathlib.LinearAlgebra.Matrix.Symmetric
import Mathlib.Analysis.SpecificLimits.Basic

/-!
# C232: what the projected gradient prototype computes
-/

set_option linter.unusedSectionVars false

namespace PolyMPC.Spec.GradProj

/-- `x` lies in the box. -/
def InBox {n : ℕ} (l u x : Fin n → ℝ) : Prop := ∀ i, l i ≤ x i ∧ x i ≤ u i

/-- `x` is a best point of the box for the cost `f`. -/
def BestInBox {n : ℕ} (f : (Fin n → ℝ) → ℝ) (l u x : Fin n → ℝ) : Prop := InBox l u x ∧ ∀ y, InBox l u y → f x ≤ f y

end PolyMPC.Spec.GradProj

namespace PolyMPC.GradProj
open Matrix Spec.GradProj

variable {n : ℕ}

/-- A successful search: some trial `0.9 * 0.3 ^ j` passes the test. -/
theorem search_some {q : Problem n} {x y : Fin n → ℝ} : ∀ {fuel : ℕ} {a : ℝ}, q.search x fuel a = some y →
    ∃ j, j < fuel ∧ y = x - q.p x ((3 / 10) ^ j * a) ∧
      q.f y ≤ q.f x - (3 / 10) ^ j * a * (1 / 100000) * (q.grad x ⬝ᵥ (y - x)) ∧
      ∀ i < j, ¬ q.f (x - q.p x ((3 / 10) ^ i * a)) ≤
        q.f x - (3 / 10) ^ i * a * (1 / 100000) * (q.grad x ⬝ᵥ (x - q.p x ((3 / 10) ^ i * a) - x))
  | 0, _, h => by simp [Problem.search] at h
  | fuel + 1, a, h => by
    rw [Problem.search] at h
    by_cases c : q.f (x - q.p x a) ≤ q.f x - a * (1 / 100000) * (q.grad x ⬝ᵥ (x - q.p x a - x))
    · rw [if_pos c] at h
      obtain rfl := Option.some.inj h
      exact ⟨0, by omega, by simp, by simpa using c, fun i hi => by omega⟩
    · rw [if_neg c] at h
      obtain ⟨j, hj, e, b, m⟩ := search_some h
      have s : ∀ k : ℕ, (3 / 10 : ℝ) ^ k * (3 / 10 * a) = (3 / 10) ^ (k + 1) * a := fun k => by ring
      rw [s] at e b
      refine ⟨j + 1, by omega, e, b, fun i hi => ?_⟩
      rcases i with _ | i
      · simpa using c
      · have := m i (by omega)
        rwa [s] at this

/-- A trial that passes the test ends the search. -/
theorem search_ends {q : Problem n} {x : Fin n → ℝ} : ∀ {j fuel : ℕ} {a : ℝ}, j < fuel →
    q.f (x - q.p x ((3 / 10) ^ j * a)) ≤ q.f x - (3 / 10) ^ j * a * (1 / 100000) * (q.grad x ⬝ᵥ (x - q.p x ((3 / 10) ^ j * a) - x)) →
    ∃ y, q.search x fuel a = some y
  | _, 0, _, h, _ => by omega
  | j, fuel + 1, a, h, c => by
    rw [Problem.search]
    by_cases c0 : q.f (x - q.p x a) ≤ q.f x - a * (1 / 100000) * (q.grad x ⬝ᵥ (x - q.p x a - x))
    · exact ⟨_, if_pos c0⟩
    · rw [if_neg c0]
      rcases j with _ | j
      · exact absurd (by simpa using c) c0
      · have s : (3 / 10 : ℝ) ^ j * (3 / 10 * a) = (3 / 10) ^ (j + 1) * a := by ring
        exact search_ends (j := j) (by omega) (by rw [s]; exact c)

/-- The cost along a step. -/
theorem cost_step (q : Problem n) (hs : q.H.IsSymm) (x p : Fin n → ℝ) :
    q.f (x - p) = q.f x - q.grad x ⬝ᵥ p + 1 / 2 * (p ⬝ᵥ q.H *ᵥ p) := by
  have e : x ⬝ᵥ q.H *ᵥ p = p ⬝ᵥ q.H *ᵥ x := by
    rw [dotProduct_mulVec, ← mulVec_transpose, hs.eq, dotProduct_comm]
  have e' : q.H *ᵥ x ⬝ᵥ p = p ⬝ᵥ q.H *ᵥ x := dotProduct_comm _ _
  unfold Problem.f Problem.grad
  rw [mulVec_sub, dotProduct_sub, sub_dotProduct, sub_dotProduct, dotProduct_sub, add_dotProduct, e, e']
  ring

/-- Every pass moves the point by a vector of the box: `l ≤ x - x' ≤ u`. -/
theorem moved_by_box {q : Problem n} (hb : ∀ i, q.l i ≤ q.u i) {fuel : ℕ} {x y : Fin n → ℝ} (h : q.iter fuel x = some y) : InBox q.l q.u (x - y) := by
  obtain ⟨j, -, rfl, -⟩ := search_some h
  intro i
  simp only [Pi.sub_apply, sub_sub_cancel, Problem.p, boxProjection]
  exact ⟨le_min (le_max_right _ _) (hb i), min_le_right _ _⟩

theorem moved_total {q : Problem n} (hb : ∀ i, q.l i ≤ q.u i) {fuel : ℕ} : ∀ {k : ℕ} {x y : Fin n → ℝ}, q.loop fuel k x = some y →
    ∀ i, k * q.l i ≤ x i - y i ∧ x i - y i ≤ k * q.u i
  | 0, x, y, h, i => by
    obtain rfl := Option.some.inj h
    simp
  | k + 1, x, y, h, i => by
    rw [Problem.loop, Option.bind_eq_some_iff] at h
    obtain ⟨z, h1, h2⟩ := h
    have a := moved_by_box hb h1 i
    have b := moved_total hb h2 i
    simp only [Pi.sub_apply] at a
    push_cast
    constructor <;> nlinarith [a.1, a.2, b.1, b.2]

/-- **The box is a box for the steps.** A call that returns has moved every component by at least `100 l` and at most `100 u` downwards.
In particular, if the box does not contain zero, the result is away from the start by at least a hundred times the lower limit,
wherever the minimum is. -/
theorem gp_moves {q : Problem n} (hb : ∀ i, q.l i ≤ q.u i) {fuel : ℕ} {x y : Fin n → ℝ} (h : q.solve fuel x = some y) (i : Fin n) :
    100 * q.l i ≤ x i - y i ∧ x i - y i ≤ 100 * q.u i := by
  have := moved_total hb h i
  simpa using this

/-- Calls return with a box that does not contain zero. -/
theorem away_returns : ∀ (k : ℕ) (x : Fin 1 → ℝ), ∃ y, (Problem.mk (n := 1) 0 ![1] ![1] ![2]).loop 1 k x = some y
  | 0, x => ⟨x, rfl⟩
  | k + 1, x => by
    have e : (Problem.mk (n := 1) 0 ![1] ![1] ![2]).iter 1 x = some (x - ![1]) := by
      have hp : (Problem.mk (n := 1) 0 ![1] ![1] ![2]).p x (9 / 10) = ![1] := by
        funext i
        fin_cases i
        norm_num [Problem.p, boxProjection, Problem.grad]
      rw [Problem.iter, Problem.search, hp]
      refine if_pos ?_
      simp [Problem.f, Problem.grad, dotProduct]
      have : vecHead x = x 0 := rfl
      rw [this]
      linarith
    rw [Problem.loop, e]
    exact away_returns k _

example : ∃ y, (Problem.mk (n := 1) 0 ![1] ![1] ![2]).solve 1 ![0] = some y ∧ y 0 ≤ -100 := by
  obtain ⟨y, h⟩ := away_returns 100 ![0]
  have := (gp_moves (fun i => by fin_cases i; norm_num) h 0).1
  refine ⟨y, h, ?_⟩
  simp at this
  linarith

/-- A clipped step is between zero and the full step. -/
theorem clip_between {l u a : ℝ} (hl : l ≤ 0) (hu : 0 ≤ u) : (min (max a l) u) ^ 2 ≤ a * min (max a l) u := by
  rcases le_total 0 a with h | h
  · rw [max_eq_left (hl.trans h)]
    have h1 : 0 ≤ min a u := le_min h hu
    nlinarith [min_le_left a u]
  · have h1 : max a l ≤ 0 := max_le h hl
    rw [min_eq_left (h1.trans hu)]
    nlinarith [le_max_left a l]

theorem p_dot {q : Problem n} (hl : ∀ i, q.l i ≤ 0) (hu : ∀ i, 0 ≤ q.u i) (x : Fin n → ℝ) {a : ℝ} :
    q.p x a ⬝ᵥ q.p x a ≤ a * (q.grad x ⬝ᵥ q.p x a) := by
  unfold dotProduct
  rw [Finset.mul_sum]
  refine Finset.sum_le_sum fun i _ => ?_
  have := clip_between (a := a * q.grad x i) (hl i) (hu i)
  simp only [Problem.p, boxProjection, Pi.smul_apply, smul_eq_mul]
  nlinarith

/-- The trial step passes the test as soon as `alpha * L ≤ 2`, where `p'Hp ≤ L p'p`. -/
theorem small_passes {q : Problem n} (hs : q.H.IsSymm) (hl : ∀ i, q.l i ≤ 0) (hu : ∀ i, 0 ≤ q.u i) {L : ℝ} (hL0 : 0 ≤ L)
    (hL : ∀ p : Fin n → ℝ, p ⬝ᵥ q.H *ᵥ p ≤ L * (p ⬝ᵥ p)) (x : Fin n → ℝ) {a : ℝ} (ha : 0 < a) (haL : a * L ≤ 2) :
    q.f (x - q.p x a) ≤ q.f x - a * (1 / 100000) * (q.grad x ⬝ᵥ (x - q.p x a - x)) := by
  have e : x - q.p x a - x = -q.p x a := by abel
  rw [cost_step q hs, e, dotProduct_neg]
  have h1 := hL (q.p x a)
  have h2 := p_dot hl hu x (a := a)
  have h3 : 0 ≤ q.p x a ⬝ᵥ q.p x a := by
    unfold dotProduct; exact Finset.sum_nonneg fun i _ => mul_self_nonneg _
  have h4 : 0 ≤ q.grad x ⬝ᵥ q.p x a := by nlinarith [le_trans h3 h2, (mul_nonneg_iff_of_pos_left ha).1 (le_trans h3 h2)]
  have h5 : L * (q.p x a ⬝ᵥ q.p x a) ≤ a * L * (q.grad x ⬝ᵥ q.p x a) := by nlinarith
  have h6 : a * L * (q.grad x ⬝ᵥ q.p x a) ≤ 2 * (q.grad x ⬝ᵥ q.p x a) := mul_le_mul_of_nonneg_right haL h4
  have h7 : 0 ≤ a * (1 / 100000) * (q.grad x ⬝ᵥ q.p x a) := by positivity
  linarith

/-- Some trial is small enough. -/
theorem exists_small (L : ℝ) : ∃ j : ℕ, (3 / 10 : ℝ) ^ j * (9 / 10) * L ≤ 2 := by
  rcases le_or_gt L 0 with h | h
  · exact ⟨0, by norm_num; linarith⟩
  · obtain ⟨j, hj⟩ := exists_pow_lt_of_lt_one (show (0 : ℝ) < 2 / L by positivity) (show (3 / 10 : ℝ) < 1 by norm_num)
    refine ⟨j, ?_⟩
    rw [lt_div_iff₀ h] at hj
    have : (0 : ℝ) ≤ (3 / 10) ^ j * L := by positivity
    nlinarith

theorem loop_ends {q : Problem n} (hs : q.H.IsSymm) (hl : ∀ i, q.l i ≤ 0) (hu : ∀ i, 0 ≤ q.u i) {L : ℝ} (hL0 : 0 ≤ L)
    (hL : ∀ p : Fin n → ℝ, p ⬝ᵥ q.H *ᵥ p ≤ L * (p ⬝ᵥ p)) {j : ℕ} (hj : (3 / 10 : ℝ) ^ j * (9 / 10) * L ≤ 2) :
    ∀ (k : ℕ) (x : Fin n → ℝ), ∃ y, q.loop (j + 1) k x = some y
  | 0, x => ⟨x, rfl⟩
  | k + 1, x => by
    obtain ⟨z, hz⟩ := search_ends (q := q) (x := x) (j := j) (fuel := j + 1) (a := 9 / 10) (by omega)
      (small_passes hs hl hu hL0 hL x (by positivity) hj)
    obtain ⟨y, hy⟩ := loop_ends hs hl hu hL0 hL hj k z
    exact ⟨y, by rw [Problem.loop, Problem.iter, hz]; exact hy⟩

/-- **It returns.** For a symmetric matrix and a box containing zero every line search ends, from every start, with the same number of
trials. -/
theorem gp_returns {q : Problem n} (hs : q.H.IsSymm) (hl : ∀ i, q.l i ≤ 0) (hu : ∀ i, 0 ≤ q.u i) :
    ∃ fuel, ∀ x, ∃ y, q.solve fuel x = some y := by
  obtain ⟨L, hL0, hL⟩ : ∃ L : ℝ, 0 ≤ L ∧ ∀ p : Fin n → ℝ, p ⬝ᵥ q.H *ᵥ p ≤ L * (p ⬝ᵥ p) := by
    refine ⟨∑ i, ∑ j, |q.H i j|, Finset.sum_nonneg fun i _ => Finset.sum_nonneg fun j _ => abs_nonneg _, fun p => ?_⟩
    have hi : ∀ i, p i ^ 2 ≤ p ⬝ᵥ p := fun i => by
      unfold dotProduct
      rw [sq]
      exact Finset.single_le_sum (f := fun i => p i * p i) (fun i _ => mul_self_nonneg _) (Finset.mem_univ i)
    unfold mulVec
    show ∑ i, p i * ∑ j, q.H i j * p j ≤ _
    rw [Finset.sum_mul]
    refine Finset.sum_le_sum fun i _ => ?_
    rw [Finset.mul_sum, Finset.sum_mul]
    refine Finset.sum_le_sum fun j _ => ?_
    have h1 : p i * (q.H i j * p j) ≤ |q.H i j| * |p i * p j| := by
      rw [show p i * (q.H i j * p j) = q.H i j * (p i * p j) by ring, ← abs_mul]
      exact le_abs_self _
    refine h1.trans (mul_le_mul_of_nonneg_left ?_ (abs_nonneg _))
    rw [abs_le]
    have := hi i
    have := hi j
    constructor <;> nlinarith [sq_nonneg (p i + p j), sq_nonneg (p i - p j)]
  obtain ⟨j, hj⟩ := exists_small L
  exact ⟨j + 1, fun x => loop_ends hs hl hu hL0 hL hj 100 x⟩

/-- **Points that stay.** If zero is inside the box, a pass keeps a point exactly when the gradient of the cost *without* the box
vanishes there. -/
theorem gp_fixed {q : Problem n} (hl : ∀ i, q.l i < 0) (hu : ∀ i, 0 < q.u i) {fuel : ℕ} {x y : Fin n → ℝ} (h : q.iter fuel x = some y) :
    y = x ↔ q.grad x = 0 := by
  obtain ⟨j, -, rfl, -⟩ := search_some h
  have ha : (0 : ℝ) < (3 / 10) ^ j * (9 / 10) := by positivity
  generalize (3 / 10 : ℝ) ^ j * (9 / 10) = a at ha
  have key : x - q.p x a = x ↔ q.p x a = 0 := by
    constructor
    · intro e
      have := congrArg (fun v => x - v) e
      simpa using this
    · intro e; rw [e, sub_zero]
  rw [key]
  constructor
  · intro e
    funext i
    have := congrFun e i
    simp only [Problem.p, boxProjection, Pi.smul_apply, smul_eq_mul, Pi.zero_apply] at this ⊢
    rcases lt_trichotomy (q.grad x i) 0 with g | g | g
    · have h1 : max (a * q.grad x i) (q.l i) < 0 := max_lt (mul_neg_of_pos_of_neg ha g) (hl i)
      rw [min_eq_left (h1.le.trans (hu i).le)] at this
      exact absurd this h1.ne
    · exact g
    · have h0 : 0 < a * q.grad x i := mul_pos ha g
      have h1 : 0 < min (max (a * q.grad x i) (q.l i)) (q.u i) := lt_min (lt_max_of_lt_left h0) (hu i)
      exact absurd this h1.ne'
  · intro e
    funext i
    simp [Problem.p, boxProjection, e, (hl i).le, (hu i).le]

/-! ### The data of the class -/

theorem default_f (x : Fin 2 → ℝ) : Problem.default.f x = 5 * x 0 ^ 2 + 1 / 20 * x 1 ^ 2 - x 0 - 2 * x 1 := by
  simp [Problem.f, Problem.default, Matrix.mulVec, dotProduct, Fin.sum_univ_succ]
  ring

theorem default_grad (x : Fin 2 → ℝ) : Problem.default.grad x = ![10 * x 0 - 1, 1 / 10 * x 1 - 2] := by
  funext i
  fin_cases i <;> simp [Problem.grad, Problem.default, dotProduct, Fin.sum_univ_succ] <;> ring

theorem default_symm : Problem.default.H.IsSymm := by
  ext i j
  fin_cases i <;> fin_cases j <;> simp [Problem.default]

theorem default_l (i : Fin 2) : Problem.default.l i = -1 := by fin_cases i <;> simp [Problem.default]
theorem default_u (i : Fin 2) : Problem.default.u i = 1 := by fin_cases i <;> simp [Problem.default]

/-- The box has one best point. -/
theorem default_best (x : Fin 2 → ℝ) : BestInBox Problem.default.f Problem.default.l Problem.default.u x ↔ x = ![1 / 10, 1] := by
  have hf : ∀ y : Fin 2 → ℝ, InBox Problem.default.l Problem.default.u y →
      Problem.default.f ![1 / 10, 1] + 5 * (y 0 - 1 / 10) ^ 2 + (1 - y 1) ≤ Problem.default.f y := by
    intro y hy
    have h1 := (hy 1).1
    have h2 := (hy 1).2
    rw [default_l] at h1
    rw [default_u] at h2
    rw [default_f, default_f]
    simp
    nlinarith
  have hin : InBox Problem.default.l Problem.default.u ![1 / 10, 1] := by
    intro i
    rw [default_l, default_u]
    fin_cases i <;> norm_num
  constructor
  · rintro ⟨hx, hb⟩
    have a := hf x hx
    have b := hb _ hin
    have h2 := (hx 1).2
    rw [default_u] at h2
    have e1 : x 1 = 1 := by nlinarith [sq_nonneg (x 0 - 1 / 10)]
    have e0 : x 0 = 1 / 10 := by
      have : (x 0 - 1 / 10) ^ 2 = 0 := by nlinarith [sq_nonneg (x 0 - 1 / 10)]
      have := pow_eq_zero_iff (two_ne_zero) |>.1 this
      linarith
    funext i
    fin_cases i
    · simpa using e0
    · simpa using e1
  · rintro rfl
    refine ⟨hin, fun y hy => ?_⟩
    have h2 := (hy 1).2
    rw [default_u] at h2
    nlinarith [hf y hy, sq_nonneg (y 0 - 1 / 10)]

theorem default_curv (p : Fin 2 → ℝ) : p ⬝ᵥ Problem.default.H *ᵥ p ≤ 10 * (p ⬝ᵥ p) := by
  simp [Problem.default, Matrix.mulVec, dotProduct, Fin.sum_univ_succ]
  nlinarith [mul_self_nonneg (p 1)]

/-- One pass closes the gap of the second variable to 20 by at least 0.81 percent and at most nine percent. -/
theorem default_pass {fuel : ℕ} {x y : Fin 2 → ℝ} (h : Problem.default.iter fuel x = some y) (h0 : 0 ≤ x 1) (h1 : x 1 < 20) :
    20 - y 1 ≤ (9919 / 10000) * (20 - x 1) ∧ (91 / 100) * (20 - x 1) ≤ 20 - y 1 := by
  obtain ⟨j, -, rfl, -, hm⟩ := search_some h
  have hj : j ≤ 2 := by
    by_contra hc
    refine hm 2 (by omega) ?_
    exact small_passes default_symm (fun i => by rw [default_l]; norm_num) (fun i => by rw [default_u]; norm_num) (L := 10) (by norm_num)
      default_curv x (by norm_num) (by norm_num)
  have hlo : (81 / 1000 : ℝ) ≤ (3 / 10) ^ j * (9 / 10) := by
    interval_cases j <;> norm_num
  have hhi : (3 / 10 : ℝ) ^ j * (9 / 10) ≤ 9 / 10 := by
    interval_cases j <;> norm_num
  generalize (3 / 10 : ℝ) ^ j * (9 / 10) = a at hlo hhi
  have e : (x - Problem.default.p x a) 1 = x 1 - min (max (a * (1 / 10 * x 1 - 2)) (-1)) 1 := by
    simp only [Pi.sub_apply, Problem.p, boxProjection, Pi.smul_apply, smul_eq_mul, default_grad, default_l, default_u]
    simp
  have hn : a * (1 / 10 * x 1 - 2) ≤ 0 := by nlinarith
  rw [e, min_eq_left (by exact (max_le hn (by norm_num)).trans (by norm_num))]
  rcases le_total (a * (1 / 10 * x 1 - 2)) (-1) with c | c
  · rw [max_eq_right c]
    constructor <;> nlinarith
  · rw [max_eq_left c]
    constructor <;> nlinarith

theorem default_loop {fuel : ℕ} : ∀ {k : ℕ} {x y : Fin 2 → ℝ}, Problem.default.loop fuel k x = some y → 0 ≤ x 1 → x 1 < 20 →
    20 - y 1 ≤ (9919 / 10000) ^ k * (20 - x 1) ∧ y 1 < 20
  | 0, x, y, h, h0, h1 => by
    obtain rfl := Option.some.inj h
    simp [h1]
  | k + 1, x, y, h, h0, h1 => by
    rw [Problem.loop, Option.bind_eq_some_iff] at h
    obtain ⟨z, a, b⟩ := h
    obtain ⟨c, d⟩ := default_pass a h0 h1
    obtain ⟨e, f⟩ := default_loop b (by linarith) (by linarith)
    refine ⟨e.trans ?_, f⟩
    calc (9919 / 10000 : ℝ) ^ k * (20 - z 1) ≤ (9919 / 10000) ^ k * ((9919 / 10000) * (20 - x 1)) :=
          mul_le_mul_of_nonneg_left c (by positivity)
      _ = _ := by ring

/-- **The test's own problem.** From every start whose second component is between 0 and 1, in particular from the origin used by the test
and from the best point of the box, `solve` returns, and the result is a point with second component between 11 and 20, far
outside the box `[-1, 1]²`. -/
theorem gp_default : ∃ fuel, ∀ x : Fin 2 → ℝ, 0 ≤ x 1 → x 1 ≤ 1 →
    ∃ y, Problem.default.solve fuel x = some y ∧ 11 < y 1 ∧ y 1 < 20 ∧ ¬ InBox Problem.default.l Problem.default.u y := by
  obtain ⟨fuel, hf⟩ := gp_returns (q := Problem.default) default_symm (fun i => by rw [default_l]; norm_num)
    (fun i => by rw [default_u]; norm_num)
  refine ⟨fuel, fun x h0 h1 => ?_⟩
  obtain ⟨y, hy⟩ := hf x
  obtain ⟨a, b⟩ := default_loop hy h0 (by linarith)
  have c : (9919 / 10000 : ℝ) ^ 100 < 45 / 100 := by norm_num
  have d : 11 < y 1 := by nlinarith
  refine ⟨y, hy, d, b, fun hb => ?_⟩
  have := (hb 1).2
  rw [default_u] at this
  linarith

/-- **The best point of the box is not returned.** Started at it, `solve` returns a point outside the box. -/
theorem gp_leaves_best : ∃ fuel, ∀ x, BestInBox Problem.default.f Problem.default.l Problem.default.u x →
    ∃ y, Problem.default.solve fuel x = some y ∧ ¬ InBox Problem.default.l Problem.default.u y := by
  obtain ⟨fuel, h⟩ := gp_default
  refine ⟨fuel, fun x hx => ?_⟩
  rw [default_best] at hx
  obtain ⟨y, a, -, -, b⟩ := h x (by simp [hx]) (by simp [hx])
  exact ⟨y, a, b⟩

example : ∃ x, BestInBox Problem.default.f Problem.default.l Problem.default.u x := ⟨_, (default_best _).2 rfl⟩

/-- **The test of the line search has the wrong sign.** For the convex cost `0.5 H x²` with `H = 1.000009/0.45` and any box around zero that
does not clip, a pass started at `x ≠ 0` accepts the first trial, and the new point has a strictly larger cost. -/
theorem gp_ascends {b x : ℝ} (hx : x ≠ 0) (hb : 3 * |x| ≤ b) {fuel : ℕ} (hf : 0 < fuel) :
    ∃ y, (Problem.mk (n := 1) !![1000009 / 450000] ![0] ![-b] ![b]).iter fuel ![x] = some y ∧
      (Problem.mk (n := 1) !![1000009 / 450000] ![0] ![-b] ![b]).f ![x] < (Problem.mk (n := 1) !![1000009 / 450000] ![0] ![-b] ![b]).f y := by
  set q : Problem 1 := Problem.mk (n := 1) !![1000009 / 450000] ![0] ![-b] ![b] with hq
  have hfx : ∀ v : Fin 1 → ℝ, q.f v = 1000009 / 900000 * v 0 ^ 2 := fun v => by
    simp [hq, Problem.f, Matrix.mulVec, dotProduct]
    ring
  have hgx : q.grad ![x] = ![1000009 / 450000 * x] := by
    funext i
    fin_cases i
    simp [hq, Problem.grad, mul_comm]
  have hp : q.p ![x] (9 / 10) = ![1000009 / 500000 * x] := by
    funext i
    fin_cases i
    have hl : |1000009 / 500000 * x| ≤ b := by
      rw [abs_mul, abs_of_pos (by norm_num : (0 : ℝ) < 1000009 / 500000)]
      nlinarith [abs_nonneg x]
    simp only [Problem.p, boxProjection, hgx]
    have hl := abs_le.1 hl
    have e : (9 / 10 : ℝ) * (1000009 / 450000 * x) = 1000009 / 500000 * x := by ring
    simp [hq]
    rw [e, max_eq_left hl.1, min_eq_left hl.2]
  obtain ⟨fuel, rfl⟩ : ∃ m, fuel = m + 1 := ⟨fuel - 1, by omega⟩
  have hx2 : 0 < x ^ 2 := by positivity
  refine ⟨![x] - q.p ![x] (9 / 10), ?_, ?_⟩
  · rw [Problem.iter, Problem.search]
    refine if_pos ?_
    rw [hfx, hfx, hgx, hp]
    simp [dotProduct]
    nlinarith
  · rw [hfx, hfx, hp]
    simp
    nlinarith

end PolyMPC.GradProj
