import Mathlib.Analysis.Real.Sqrt
import Mathlib.Tactic.Linarith
import Mathlib.Tactic.LinearCombination
import Mathlib.Tactic.FieldSimp
import Mathlib.Tactic.Positivity

/-!
# ADMM on `min 5 x` subject to `-1 ≤ 2 x ≤ 20`, `0 ≤ x ≤ 10`, with a step size that changes every 25 passes

Scalar calculations for C188 and C199, independent of the solver's data structures.
-/

set_option linter.unusedSectionVars false

namespace PolyMPC.AdmmCycle

/-- Variable, the two auxiliary variables and the two multipliers. -/
structure Pt where
  x : ℝ
  z1 : ℝ
  z2 : ℝ
  y1 : ℝ
  y2 : ℝ

/-- One pass with step size `ρ`, `sigma = 1e-6` and `alpha = 1`. -/
structure Pass (ρ : ℝ) (p q : Pt) : Prop where
  stat : 5 + 2 * (p.y1 + ρ * (2 * q.x - p.z1)) + (p.y2 + ρ * (q.x - p.z2)) = -(1 / 1000000 * (q.x - p.x))
  hz1 : q.z1 = min (max (2 * q.x + p.y1 / ρ) (-1)) 20
  hz2 : q.z2 = min (max (q.x + p.y2 / ρ) 0) 10
  hy1 : q.y1 = p.y1 + ρ * (2 * q.x - q.z1)
  hy2 : q.y2 = p.y2 + ρ * (q.x - q.z2)

/-- Distance from the point at which the passes stall. -/
noncomputable def Pt.e (p : Pt) : ℝ := p.x + 2 / 5
/-- Gradient of the Lagrangian. -/
noncomputable def Pt.s (p : Pt) : ℝ := 5 + 2 * p.y1 + p.y2
/-- The other combination of the multipliers. -/
noncomputable def Pt.d (p : Pt) : ℝ := p.y1 - 2 * p.y2

/-- Both auxiliary variables are at their lower bounds. -/
def Pt.Low (p : Pt) : Prop := p.z1 = -1 ∧ p.z2 = 0

theorem y1_eq (p : Pt) : p.y1 = (2 * (p.s - 5) + p.d) / 5 := by unfold Pt.s Pt.d; ring
theorem y2_eq (p : Pt) : p.y2 = (p.s - 5 - 2 * p.d) / 5 := by unfold Pt.s Pt.d; ring

variable {ρ : ℝ} {p q : Pt}

theorem clip_low {v l u : ℝ} (h : v ≤ l) (hlu : l ≤ u) : min (max v l) u = l := by
  rw [max_eq_right h, min_eq_left hlu]

theorem clip_mid {v l u : ℝ} (h : l ≤ v) (hu : v ≤ u) : min (max v l) u = v := by
  rw [max_eq_left h, min_eq_left hu]

/-- A pass that ends with both auxiliary variables at the lower bounds. -/
theorem low_of (hρ : 0 < ρ) (h : Pass ρ p q) (h1 : p.y1 + ρ * (2 * q.x + 1) ≤ 0) (h2 : p.y2 + ρ * q.x ≤ 0) :
    q.Low ∧ q.y1 = p.y1 + ρ * (2 * q.x + 1) ∧ q.y2 = p.y2 + ρ * q.x := by
  have e1 : ρ * (p.y1 / ρ) = p.y1 := mul_div_cancel₀ _ hρ.ne'
  have e2 : ρ * (p.y2 / ρ) = p.y2 := mul_div_cancel₀ _ hρ.ne'
  have a1 : 2 * q.x + p.y1 / ρ ≤ -1 := by
    by_contra hc
    have := mul_pos hρ (sub_pos.mpr (not_le.mp hc))
    linarith [this, e1]
  have a2 : q.x + p.y2 / ρ ≤ 0 := by
    by_contra hc
    have := mul_pos hρ (not_le.mp hc)
    linarith [this, e2]
  have z1 : q.z1 = -1 := by rw [h.hz1, clip_low a1 (by norm_num)]
  have z2 : q.z2 = 0 := by rw [h.hz2, clip_low a2 (by norm_num)]
  refine ⟨⟨z1, z2⟩, ?_, ?_⟩
  · rw [h.hy1, z1]; ring
  · rw [h.hy2, z2]; ring

/-- The recursion between two such points. -/
theorem low_step (h : Pass ρ p q) (hp : p.Low) :
    (1 / 1000000 + 5 * ρ) * q.e = 1 / 1000000 * p.e - p.s := by
  have := h.stat
  rw [hp.1, hp.2] at this
  unfold Pt.e Pt.s
  linarith

theorem low_next (hρ : 0 < ρ) (h : Pass ρ p q) (hp : p.Low) (h1 : 2 * (1 / 1000000 * (p.e - q.e) - 5) + (p.d + ρ) ≤ 0)
    (h2 : 1 / 1000000 * (p.e - q.e) - 5 - 2 * (p.d + ρ) ≤ 0) :
    q.Low ∧ q.s = 1 / 1000000 * (p.e - q.e) ∧ q.d = p.d + ρ := by
  have k := low_step h hp
  have a : p.s + 5 * ρ * q.e = 1 / 1000000 * (p.e - q.e) := by linarith
  have hx : q.x = q.e - 2 / 5 := by unfold Pt.e; ring
  obtain ⟨c1, c2, c3⟩ := low_of hρ h (by
      have : p.y1 + ρ * (2 * q.x + 1) = (2 * (p.s + 5 * ρ * q.e - 5) + (p.d + ρ)) / 5 := by rw [hx, y1_eq p]; ring
      rw [this, a]; linarith) (by
      have : p.y2 + ρ * q.x = (p.s + 5 * ρ * q.e - 5 - 2 * (p.d + ρ)) / 5 := by rw [hx, y2_eq p]; ring
      rw [this, a]; linarith)
  refine ⟨c1, ?_, ?_⟩
  · rw [← a]; unfold Pt.s; rw [c2, c3, hx]; ring
  · unfold Pt.d; rw [c2, c3]; ring

/-! ### The phase with the smallest step size -/

/-- The first pass. -/
theorem tiny_first (h : Pass (1 / 1000000) p q) (h0 : 0 ≤ p.x) (h1 : p.x ≤ 1) (hz1 : p.z1 = 2 * p.x) (hz2 : p.z2 = p.x) (hy1 : p.y1 = 0) (hy2 : p.y2 = 0) :
    q.Low ∧ q.d = 1 / 1000000 ∧ 5 * q.e ^ 2 + (1000000 * q.s) ^ 2 ≤ 4200000000000 := by
  have k := h.stat
  rw [hz1, hz2, hy1, hy2] at k
  have hx : q.x = p.x - 2500000 / 3 := by linarith
  obtain ⟨c1, c2, c3⟩ := low_of (by norm_num) h (by rw [hy1, hx]; linarith) (by rw [hy2, hx]; linarith)
  rw [hy1, zero_add] at c2
  rw [hy2, zero_add] at c3
  refine ⟨c1, by unfold Pt.d; rw [c2, c3]; ring, ?_⟩
  have e1 : q.e = p.x + 2 / 5 - 2500000 / 3 := by unfold Pt.e; rw [hx]; ring
  have e2 : 1000000 * q.s = 5 * (p.x + 2 / 5) + 2500000 / 3 := by unfold Pt.s; rw [c2, c3, hx]; ring
  rw [e1, e2]
  nlinarith

theorem tiny_next (h : Pass (1 / 1000000) p q) (hp : p.Low) (hd0 : 0 ≤ p.d) (hd : p.d ≤ 1) {V : ℝ} (hV : 5 * p.e ^ 2 + (1000000 * p.s) ^ 2 ≤ V) (hVm : V ≤ 4200000000000) :
    q.Low ∧ q.d = p.d + 1 / 1000000 ∧ 5 * q.e ^ 2 + (1000000 * q.s) ^ 2 ≤ V / 6 := by
  have k := low_step h hp
  have hw : (p.e - q.e) = (5 * p.e + 1000000 * p.s) / 6 := by linarith
  have he : q.e = (p.e - 1000000 * p.s) / 6 := by linarith
  have hb : (p.e - q.e) ^ 2 ≤ V / 6 := by
    rw [hw]; nlinarith [sq_nonneg (p.e - 1000000 * p.s)]
  have hb' : p.e - q.e ≤ 1000000 := by
    refine abs_le_of_sq_le_sq' (a := p.e - q.e) (b := 1000000) (by linarith) (by norm_num) |>.2
  obtain ⟨c1, c2, c3⟩ := low_next (by norm_num) h hp (by linarith) (by linarith)
  refine ⟨c1, c3, ?_⟩
  rw [c2, hw, he]
  nlinarith

/-- The 25 passes with the smallest step size end near the stalling point. -/
theorem tiny_phase {f : ℕ → Pt} (hf : ∀ i < 25, Pass (1 / 1000000) (f i) (f (i + 1))) (h0 : 0 ≤ (f 0).x) (h1 : (f 0).x ≤ 1) (hz1 : (f 0).z1 = 2 * (f 0).x) (hz2 : (f 0).z2 = (f 0).x)
    (hy1 : (f 0).y1 = 0) (hy2 : (f 0).y2 = 0) :
    (f 25).Low ∧ (f 25).d = 1 / 40000 ∧ |(f 25).e| ≤ 1 / 2000 ∧ |(f 25).s| ≤ 1 / 1000000000 := by
  have key : ∀ i < 25, (f (i + 1)).Low ∧ (f (i + 1)).d = (i + 1 : ℕ) / 1000000 ∧
      5 * (f (i + 1)).e ^ 2 + (1000000 * (f (i + 1)).s) ^ 2 ≤ 4200000000000 / 6 ^ i := by
    intro i
    induction i with
    | zero =>
      intro _
      obtain ⟨a, b, c⟩ := tiny_first (hf 0 (by norm_num)) h0 h1 hz1 hz2 hy1 hy2
      exact ⟨a, by rw [b]; norm_num, by simpa using c⟩
    | succ i ih =>
      intro hi
      obtain ⟨a, b, c⟩ := ih (by omega)
      have hir : ((i : ℝ)) ≤ 25 := by exact_mod_cast (by omega : i ≤ 25)
      have hi0 : (0 : ℝ) ≤ i := Nat.cast_nonneg i
      obtain ⟨a', b', c'⟩ := tiny_next (hf (i + 1) hi) a (by rw [b]; positivity) (by rw [b]; push_cast; linarith) c
        (div_le_self (by norm_num) (one_le_pow₀ (by norm_num)))
      refine ⟨a', by rw [b', b]; push_cast; ring, c'.trans_eq ?_⟩
      rw [pow_succ, div_div]
  obtain ⟨a, b, c⟩ := key 24 (by norm_num)
  have hs : (f 25).s ^ 2 ≤ (1 / 1000000000) ^ 2 := by
    norm_num at c ⊢
    nlinarith [sq_nonneg (f 25).e]
  have he : (f 25).e ^ 2 ≤ (1 / 2000) ^ 2 := by
    norm_num at c ⊢
    nlinarith [sq_nonneg (f 25).s]
  refine ⟨a, by rw [b]; norm_num, abs_le_of_sq_le_sq he (by norm_num), abs_le_of_sq_le_sq hs (by norm_num)⟩

/-! ### The phases with a step size near `0.02` and with the first step size `0.1` -/

theorem stall_next (hρ : 9 / 500 ≤ ρ) (h : Pass ρ p q) (hp : p.Low) (he : |p.e| ≤ 1 / 2000) (hs : |p.s| ≤ 1 / 1000000000) (hd0 : 0 ≤ p.d + ρ) (hd : p.d + ρ ≤ 3) :
    q.Low ∧ |q.e| ≤ 1 / 50000000 ∧ q.s = 1 / 1000000 * (p.e - q.e) ∧ q.d = p.d + ρ := by
  have hρ0 : 0 < ρ := by linarith
  have k := low_step h hp
  have e1 := abs_le.mp he
  have s1 := abs_le.mp hs
  have b : |q.e| ≤ 1 / 50000000 := by
    rw [abs_le]
    constructor
    · by_contra hc
      have hc := not_le.mp hc
      nlinarith
    · by_contra hc
      have hc := not_le.mp hc
      nlinarith
  have b1 := abs_le.mp b
  obtain ⟨c1, c2, c3⟩ := low_next hρ0 h hp (by linarith) (by linarith)
  exact ⟨c1, b, c2, c3⟩

theorem stall_phase {f : ℕ → Pt} {m : ℕ} (hρ : 9 / 500 ≤ ρ) (hf : ∀ i < m + 2, Pass ρ (f i) (f (i + 1))) (h0 : (f 0).Low) (he : |(f 0).e| ≤ 1 / 2000) (hs : |(f 0).s| ≤ 1 / 1000000000)
    (hd0 : 0 ≤ (f 0).d) (hd : (f 0).d + (m + 2 : ℕ) * ρ ≤ 3) :
    (f (m + 2)).Low ∧ |(f (m + 2)).e| ≤ 1 / 10000000 ∧ |(f (m + 2)).s| ≤ 1 / 1000000000000 ∧ (f (m + 2)).d = (f 0).d + (m + 2 : ℕ) * ρ := by
  have hρ0 : 0 < ρ := by linarith
  have key : ∀ i ≤ m + 1, (f i).Low ∧ |(f i).e| ≤ 1 / 2000 ∧ |(f i).s| ≤ 1 / 1000000000 ∧ (f i).d = (f 0).d + i * ρ ∧ (1 ≤ i → |(f i).e| ≤ 1 / 50000000) := by
    intro i
    induction i with
    | zero => intro _; exact ⟨h0, he, hs, by simp, by omega⟩
    | succ i ih =>
      intro hi
      obtain ⟨a1, a2, a3, a4, -⟩ := ih (by omega)
      have hile : ((i + 1 : ℕ) : ℝ) * ρ ≤ (m + 2 : ℕ) * ρ := mul_le_mul_of_nonneg_right (by exact_mod_cast (by omega : i + 1 ≤ m + 2)) hρ0.le
      have hi0 : (0 : ℝ) ≤ (i : ℝ) * ρ := by positivity
      have hd' : (f i).d + ρ = (f 0).d + (i + 1 : ℕ) * ρ := by rw [a4]; push_cast; ring
      obtain ⟨b1, b2, b3, b4⟩ := stall_next hρ (hf i (by omega)) a1 a2 a3 (by rw [a4]; linarith) (by rw [hd']; linarith)
      refine ⟨b1, b2.trans (by norm_num), ?_, by rw [b4, hd'], fun _ => b2⟩
      have c1 := abs_le.mp a2
      have c2 := abs_le.mp b2
      rw [b3, abs_le]; constructor <;> linarith
  obtain ⟨a1, a2, a3, a4, a5⟩ := key (m + 1) le_rfl
  have hd' : (f (m + 1)).d + ρ = (f 0).d + (m + 2 : ℕ) * ρ := by rw [a4]; push_cast; ring
  have hm0 : (0 : ℝ) ≤ ((m + 2 : ℕ) : ℝ) * ρ := by positivity
  obtain ⟨b1, b2, b3, b4⟩ := stall_next hρ (hf (m + 1) (by omega)) a1 a2 a3 (by rw [hd']; linarith) (by rw [hd']; linarith)
  have c1 := abs_le.mp (a5 (by omega))
  have c2 := abs_le.mp b2
  refine ⟨b1, b2.trans (by norm_num), ?_, by rw [← hd']; exact b4⟩
  show |(f (m + 1 + 1)).s| ≤ _
  rw [b3, abs_le]; constructor <;> linarith

/-- The first 25 passes, from zero. -/
theorem first_phase {f : ℕ → Pt} (hf : ∀ i < 25, Pass (1 / 10) (f i) (f (i + 1))) (h0 : f 0 = ⟨0, 0, 0, 0, 0⟩) :
    (f 25).Low ∧ |(f 25).e| ≤ 1 / 10000000 ∧ |(f 25).s| ≤ 1 / 1000000000000 ∧ (f 25).d = 5 / 2 := by
  have k0 := (hf 0 (by norm_num)).stat
  rw [h0] at k0
  simp only at k0
  have x1 : (f 1).x = -(5000000 / 500001) := by simp only [zero_add] at k0; linarith
  obtain ⟨l1, y11, y12⟩ := low_of (by norm_num) (hf 0 (by norm_num)) (by rw [h0, zero_add, x1]; norm_num) (by rw [h0, zero_add, x1]; norm_num)
  rw [h0, zero_add, x1] at y11 y12
  have e1 : (f 1).e = -(5000000 / 500001) + 2 / 5 := by unfold Pt.e; rw [x1]
  have s1 : (f 1).s = 5 + 2 * (1 / 10 * (2 * -(5000000 / 500001) + 1)) + 1 / 10 * -(5000000 / 500001) := by
    unfold Pt.s; rw [y11, y12]; ring
  have d1 : (f 1).d = 1 / 10 := by unfold Pt.d; rw [y11, y12]; norm_num
  have k1 := low_step (hf 1 (by norm_num)) l1
  rw [e1, s1] at k1
  have e2 : -(1 / 2) ≤ (f 2).e ∧ (f 2).e ≤ -(3 / 10) := by constructor <;> norm_num at k1 ⊢ <;> linarith
  obtain ⟨l2, s2, d2⟩ := low_next (by norm_num) (hf 1 (by norm_num)) l1 (by rw [d1, e1]; norm_num; linarith) (by rw [d1, e1]; norm_num; linarith)
  rw [d1] at d2
  rw [e1] at s2
  have k2 := low_step (hf 2 (by norm_num)) l2
  rw [s2] at k2
  have e3 : -(1 / 10000) ≤ (f 3).e ∧ (f 3).e ≤ 1 / 10000 := by constructor <;> norm_num at k2 ⊢ <;> linarith
  obtain ⟨l3, s3, d3⟩ := low_next (by norm_num) (hf 2 (by norm_num)) l2 (by rw [d2]; norm_num; linarith) (by rw [d2]; norm_num; linarith)
  rw [d2] at d3
  have k3 := low_step (hf 3 (by norm_num)) l3
  rw [s3] at k3
  have e4 : -(1 / 100000) ≤ (f 4).e ∧ (f 4).e ≤ 1 / 100000 := by constructor <;> norm_num at k3 ⊢ <;> linarith
  obtain ⟨l4, s4, d4⟩ := low_next (by norm_num) (hf 3 (by norm_num)) l3 (by rw [d3]; norm_num; linarith) (by rw [d3]; norm_num; linarith)
  rw [d3] at d4
  have := stall_phase (f := fun i => f (4 + i)) (m := 19) (ρ := 1 / 10) (by norm_num) (fun i hi => hf (4 + i) (by omega)) l4
    (by rw [abs_le]; constructor <;> linarith) (by show |(f 4).s| ≤ _; rw [s4, abs_le]; constructor <;> linarith) (by show 0 ≤ (f 4).d; rw [d4]; norm_num) (by show (f 4).d + _ ≤ 3; rw [d4]; norm_num)
  obtain ⟨a, b, c, d⟩ := this
  refine ⟨a, b, c, ?_⟩
  have d : (f 25).d = (f 4).d + (19 + 2 : ℕ) * (1 / 10) := d
  rw [d, d4]; norm_num

/-! ### The phase with a large step size -/

/-- A pass in units of the step size: `g = 5 / ρ`, the multipliers divided by `ρ`. -/
theorem scaled_stat (hρ : 350 ≤ ρ) (h : Pass ρ p q) (hx : |p.x| ≤ 1)
    (hR : |-(5 / ρ) + 2 * p.z1 + p.z2 - 2 * (p.y1 / ρ) - p.y2 / ρ| ≤ 5) :
    |5 * q.x - (-(5 / ρ) + 2 * p.z1 + p.z2 - 2 * (p.y1 / ρ) - p.y2 / ρ)| ≤ 1 / 10000000 := by
  have hρ0 : 0 < ρ := by linarith
  set R := -(5 / ρ) + 2 * p.z1 + p.z2 - 2 * (p.y1 / ρ) - p.y2 / ρ with hRd
  set ε := 1 / 1000000 / ρ with hε
  have hε0 : 0 ≤ ε := by positivity
  have hε1 : ε ≤ 1 / 100000000 := by
    rw [hε, div_le_iff₀ hρ0]; linarith
  have k : 5 * q.x + ε * (q.x - p.x) = R := by
    have e1 : ρ * (p.y1 / ρ) = p.y1 := mul_div_cancel₀ _ hρ0.ne'
    have e2 : ρ * (p.y2 / ρ) = p.y2 := mul_div_cancel₀ _ hρ0.ne'
    have e3 : ρ * (5 / ρ) = 5 := mul_div_cancel₀ _ hρ0.ne'
    have e4 : ρ * ε = 1 / 1000000 := mul_div_cancel₀ _ hρ0.ne'
    refine mul_left_cancel₀ hρ0.ne' ?_
    have := h.stat
    rw [hRd]
    linear_combination this + e3 + 2 * e1 + e2 + (q.x - p.x) * e4
  have x1 := abs_le.mp hx
  have r1 := abs_le.mp hR
  have hq : |q.x| ≤ 2 := by
    rw [abs_le]; constructor
    · by_contra hc; nlinarith
    · by_contra hc; nlinarith
  have q1 := abs_le.mp hq
  rw [abs_le]; constructor <;> nlinarith

/-- First variable not clipped: its multiplier vanishes. -/
theorem free1 (hρ : 0 < ρ) (h : Pass ρ p q) (h1 : -1 ≤ 2 * q.x + p.y1 / ρ) (h2 : 2 * q.x + p.y1 / ρ ≤ 20) : q.z1 = 2 * q.x + p.y1 / ρ ∧ q.y1 = 0 := by
  have e : q.z1 = 2 * q.x + p.y1 / ρ := by rw [h.hz1, clip_mid h1 h2]
  refine ⟨e, ?_⟩
  have e1 : ρ * (p.y1 / ρ) = p.y1 := mul_div_cancel₀ _ hρ.ne'
  rw [h.hy1, e]; linear_combination -e1

theorem free2 (hρ : 0 < ρ) (h : Pass ρ p q) (h1 : 0 ≤ q.x + p.y2 / ρ) (h2 : q.x + p.y2 / ρ ≤ 10) : q.z2 = q.x + p.y2 / ρ ∧ q.y2 = 0 := by
  have e : q.z2 = q.x + p.y2 / ρ := by rw [h.hz2, clip_mid h1 h2]
  refine ⟨e, ?_⟩
  have e1 : ρ * (p.y2 / ρ) = p.y2 := mul_div_cancel₀ _ hρ.ne'
  rw [h.hy2, e]; linear_combination -e1

theorem clip2 (hρ : 0 < ρ) (h : Pass ρ p q) (h1 : q.x + p.y2 / ρ ≤ 0) : q.z2 = 0 ∧ q.y2 / ρ = p.y2 / ρ + q.x := by
  have e : q.z2 = 0 := by rw [h.hz2, clip_low h1 (by norm_num)]
  refine ⟨e, ?_⟩
  rw [h.hy2, e, sub_zero, add_div, mul_div_cancel_left₀ _ hρ.ne']

/-- A pass with the first constraint inactive and the second active. -/
theorem mid_step (hρ : 350 ≤ ρ) (h : Pass ρ p q) (hz1 : p.z1 = 2 * p.x) (hz2 : p.z2 = 0) (hy1 : p.y1 = 0) {u : ℝ} (hu : p.y2 / ρ = u) (hx : |p.x| ≤ 3 / 10) (hu0 : u ≤ 0) (hu1 : -1 ≤ u) :
    |5 * q.x - (-(5 / ρ) + 4 * p.x - u)| ≤ 1 / 10000000 ∧ (|q.x| ≤ 3 / 10 → q.z1 = 2 * q.x ∧ q.y1 = 0 ∧ (q.x + u ≤ 0 → q.z2 = 0 ∧ q.y2 / ρ = u + q.x) ∧ (0 ≤ q.x + u → q.z2 = q.x + u ∧ q.y2 = 0)) := by
  have hρ0 : 0 < ρ := by linarith
  have g0 : 0 ≤ 5 / ρ := by positivity
  have g1 : 5 / ρ ≤ 1 / 70 := by rw [div_le_iff₀ hρ0]; linarith
  have x1 := abs_le.mp hx
  have e : -(5 / ρ) + 2 * p.z1 + p.z2 - 2 * (p.y1 / ρ) - p.y2 / ρ = -(5 / ρ) + 4 * p.x - u := by
    rw [hz1, hz2, hy1, hu]; ring
  have k := scaled_stat hρ h (by rw [abs_le]; constructor <;> linarith) (by rw [e, abs_le]; constructor <;> linarith)
  rw [e] at k
  refine ⟨k, fun hq => ?_⟩
  have q1 := abs_le.mp hq
  obtain ⟨a1, a2⟩ := free1 hρ0 h (by rw [hy1]; simp; linarith) (by rw [hy1]; simp; linarith)
  refine ⟨by rw [a1, hy1]; simp, a2, fun hc => ?_, fun hc => ?_⟩
  · have := clip2 hρ0 h (by rw [hu]; exact hc)
    rw [hu] at this; exact this
  · have := free2 hρ0 h (by rw [hu]; exact hc) (by rw [hu]; linarith)
    rw [hu] at this; exact this

/-- Without active constraints the variable moves by `1 / ρ`. -/
theorem drift_step (hρ : 350 ≤ ρ) (h : Pass ρ p q) (hz1 : p.z1 = 2 * p.x) (hz2 : p.z2 = p.x) (hy1 : p.y1 = 0) (hy2 : p.y2 = 0) (h0 : 1 / 100 ≤ p.x) (h1 : p.x ≤ 3 / 10) :
    q.x ≤ p.x ∧ p.x - 3 / 1000 ≤ q.x ∧ q.z1 = 2 * q.x ∧ q.z2 = q.x ∧ q.y1 = 0 ∧ q.y2 = 0 := by
  have hρ0 : 0 < ρ := by linarith
  have k := h.stat
  rw [hz1, hz2, hy1, hy2] at k
  have k' : (1 / 1000000 + 5 * ρ) * (p.x - q.x) = 5 := by linarith
  have a : q.x ≤ p.x := by
    by_contra hc
    have := not_le.mp hc
    nlinarith
  have b : p.x - 3 / 1000 ≤ q.x := by
    by_contra hc
    have := not_le.mp hc
    nlinarith
  obtain ⟨c1, c2⟩ := free1 hρ0 h (by rw [hy1]; simp; linarith) (by rw [hy1]; simp; linarith)
  obtain ⟨c3, c4⟩ := free2 hρ0 h (by rw [hy2]; simp; linarith) (by rw [hy2]; simp; linarith)
  exact ⟨a, b, by rw [c1, hy1]; simp, by rw [c3, hy2]; simp, c2, c4⟩

/-- The passes without active constraints. -/
theorem drift_phase {f : ℕ → Pt} (hρ : 350 ≤ ρ) (hf : ∀ i < 17, Pass ρ (f i) (f (i + 1))) (hz1 : (f 0).z1 = 2 * (f 0).x) (hz2 : (f 0).z2 = (f 0).x) (hy1 : (f 0).y1 = 0) (hy2 : (f 0).y2 = 0)
    (h0 : 3 / 20 ≤ (f 0).x) (h1 : (f 0).x ≤ 3 / 10) :
    0 ≤ (f 17).x ∧ (f 17).x ≤ 1 ∧ (f 17).z1 = 2 * (f 17).x ∧ (f 17).z2 = (f 17).x ∧ (f 17).y1 = 0 ∧ (f 17).y2 = 0 := by
  have key : ∀ i : ℕ, i ≤ 17 → (f i).x ≤ 3 / 10 ∧ 3 / 20 - (i : ℝ) * (3 / 1000) ≤ (f i).x ∧ (f i).z1 = 2 * (f i).x ∧ (f i).z2 = (f i).x ∧ (f i).y1 = 0 ∧ (f i).y2 = 0 := by
    intro i
    induction i with
    | zero => intro _; exact ⟨h1, by simpa using h0, hz1, hz2, hy1, hy2⟩
    | succ i ih =>
      intro hi
      obtain ⟨a1, a2, a3, a4, a5, a6⟩ := ih (by omega)
      have hir : (i : ℝ) ≤ 17 := by exact_mod_cast (by omega : i ≤ 17)
      obtain ⟨b1, b2, b3, b4, b5, b6⟩ := drift_step hρ (hf i (by omega)) a3 a4 a5 a6 (by linarith) a1
      exact ⟨b1.trans a1, by push_cast; linarith, b3, b4, b5, b6⟩
  obtain ⟨a1, a2, a3, a4, a5, a6⟩ := key 17 le_rfl
  exact ⟨by push_cast at a2; linarith, by linarith, a3, a4, a5, a6⟩

set_option maxHeartbeats 1000000 in
/-- The 25 passes with a large step size end with all multipliers zero. -/
theorem big_phase {f : ℕ → Pt} (hρ : 350 ≤ ρ) (hρ1 : ρ ≤ 2600) (hf : ∀ i < 25, Pass ρ (f i) (f (i + 1))) (hl : (f 0).Low) (he : |(f 0).e| ≤ 1 / 10000000) (hs : |(f 0).s| ≤ 1 / 1000000000000)
    (hd0 : 0 ≤ (f 0).d) (hd1 : (f 0).d ≤ 3) :
    0 ≤ (f 25).x ∧ (f 25).x ≤ 1 ∧ (f 25).z1 = 2 * (f 25).x ∧ (f 25).z2 = (f 25).x ∧ (f 25).y1 = 0 ∧ (f 25).y2 = 0 := by
  have hρ0 : 0 < ρ := by linarith
  have g0 : 1 / 520 ≤ 5 / ρ := by rw [le_div_iff₀ hρ0]; linarith
  have g1 : 5 / ρ ≤ 1 / 70 := by rw [div_le_iff₀ hρ0]; linarith
  have e0 := abs_le.mp he
  have s0 := abs_le.mp hs
  have hx0 : (f 0).x = (f 0).e - 2 / 5 := by unfold Pt.e; ring
  set g := 5 / ρ with hg
  set a := (f 0).y1 / ρ with ha
  set b := (f 0).y2 / ρ with hb
  have ha0 : a ≤ 0 := div_nonpos_of_nonpos_of_nonneg (by rw [y1_eq]; linarith) hρ0.le
  have hag : -(1 / 2) * g ≤ a := by
    rw [ha, hg, ← mul_div_assoc]; exact div_le_div_of_nonneg_right (by rw [y1_eq]; linarith) hρ0.le
  have hb0 : b ≤ 0 := div_nonpos_of_nonpos_of_nonneg (by rw [y2_eq]; linarith) hρ0.le
  have hbg : -(1 / 2) * g ≤ b := by
    rw [hb, hg, ← mul_div_assoc]; exact div_le_div_of_nonneg_right (by rw [y2_eq]; linarith) hρ0.le
  have hsum : |g + 2 * a + b| ≤ 1 / 100000000 := by
    have : g + 2 * a + b = (f 0).s / ρ := by rw [hg, ha, hb]; unfold Pt.s; ring
    rw [this, abs_div, abs_of_pos hρ0, div_le_iff₀ hρ0]; linarith
  have sum1 := abs_le.mp hsum
  -- first pass
  have E1 : -g + 2 * (f 0).z1 + (f 0).z2 - 2 * a - b = -2 - (g + 2 * a + b) := by rw [hl.1, hl.2]; ring
  have k1 := scaled_stat hρ (hf 0 (by norm_num)) (by rw [hx0, abs_le]; constructor <;> linarith) (by rw [← hg, ← ha, ← hb, E1, abs_le]; constructor <;> linarith)
  rw [← hg, ← ha, ← hb, E1] at k1
  have k1 := abs_le.mp k1
  obtain ⟨z1, y1⟩ := free1 hρ0 (hf 0 (by norm_num)) (by rw [← ha]; linarith) (by rw [← ha]; linarith)
  obtain ⟨w1, u1⟩ := clip2 hρ0 (hf 0 (by norm_num)) (by rw [← hb]; linarith)
  rw [← ha] at z1
  rw [← hb] at u1
  -- second pass
  have E2 : -g + 2 * (f 1).z1 + (f 1).z2 - 2 * ((f 1).y1 / ρ) - (f 1).y2 / ρ = -g + 3 * (f 1).x + 2 * a - b := by rw [z1, w1, y1, u1]; ring
  have k2 := scaled_stat hρ (hf 1 (by norm_num)) (by rw [abs_le]; constructor <;> linarith) (by rw [← hg, E2, abs_le]; constructor <;> linarith)
  rw [← hg, E2] at k2
  have k2 := abs_le.mp k2
  obtain ⟨z2, y2⟩ := free1 hρ0 (hf 1 (by norm_num)) (by rw [y1]; simp; linarith) (by rw [y1]; simp; linarith)
  obtain ⟨w2, u2⟩ := clip2 hρ0 (hf 1 (by norm_num)) (by rw [u1]; linarith)
  rw [y1, zero_div, add_zero] at z2
  rw [u1] at u2
  -- passes three to seven
  obtain ⟨k3, t3⟩ := mid_step hρ (hf 2 (by norm_num)) z2 w2 y2 u2 (by rw [abs_le]; constructor <;> linarith) (by linarith) (by linarith)
  rw [← hg] at k3
  have k3 := abs_le.mp k3
  obtain ⟨z3, y3, c3, -⟩ := t3 (by rw [abs_le]; constructor <;> linarith)
  obtain ⟨w3, u3⟩ := c3 (by linarith)
  obtain ⟨k4, t4⟩ := mid_step hρ (hf 3 (by norm_num)) z3 w3 y3 u3 (by rw [abs_le]; constructor <;> linarith) (by linarith) (by linarith)
  rw [← hg] at k4
  have k4 := abs_le.mp k4
  obtain ⟨z4, y4, c4, -⟩ := t4 (by rw [abs_le]; constructor <;> linarith)
  obtain ⟨w4, u4⟩ := c4 (by linarith)
  obtain ⟨k5, t5⟩ := mid_step hρ (hf 4 (by norm_num)) z4 w4 y4 u4 (by rw [abs_le]; constructor <;> linarith) (by linarith) (by linarith)
  rw [← hg] at k5
  have k5 := abs_le.mp k5
  obtain ⟨z5, y5, c5, -⟩ := t5 (by rw [abs_le]; constructor <;> linarith)
  obtain ⟨w5, u5⟩ := c5 (by linarith)
  obtain ⟨k6, t6⟩ := mid_step hρ (hf 5 (by norm_num)) z5 w5 y5 u5 (by rw [abs_le]; constructor <;> linarith) (by linarith) (by linarith)
  rw [← hg] at k6
  have k6 := abs_le.mp k6
  obtain ⟨z6, y6, c6, -⟩ := t6 (by rw [abs_le]; constructor <;> linarith)
  obtain ⟨w6, u6⟩ := c6 (by linarith)
  obtain ⟨k7, t7⟩ := mid_step hρ (hf 6 (by norm_num)) z6 w6 y6 u6 (by rw [abs_le]; constructor <;> linarith) (by linarith) (by linarith)
  rw [← hg] at k7
  have k7 := abs_le.mp k7
  obtain ⟨z7, y7, -, c7⟩ := t7 (by rw [abs_le]; constructor <;> linarith)
  obtain ⟨w7, v7⟩ := c7 (by linarith)
  -- eighth pass
  have E8 : -g + 2 * (f 7).z1 + (f 7).z2 - 2 * ((f 7).y1 / ρ) - (f 7).y2 / ρ = -g + 4 * (f 7).x + (f 7).z2 := by rw [z7, y7, v7]; ring
  have k8 := scaled_stat hρ (hf 7 (by norm_num)) (by rw [abs_le]; constructor <;> linarith) (by rw [← hg, E8, w7, abs_le]; constructor <;> linarith)
  rw [← hg, E8, w7] at k8
  have k8 := abs_le.mp k8
  have x8 : 3 / 20 ≤ (f 8).x ∧ (f 8).x ≤ 3 / 10 := by constructor <;> linarith
  obtain ⟨z8, y8⟩ := free1 hρ0 (hf 7 (by norm_num)) (by rw [y7]; simp; linarith) (by rw [y7]; simp; linarith)
  obtain ⟨w8, v8⟩ := free2 hρ0 (hf 7 (by norm_num)) (by rw [v7]; simp; linarith) (by rw [v7]; simp; linarith)
  rw [y7, zero_div, add_zero] at z8
  rw [v7, zero_div, add_zero] at w8
  exact drift_phase (f := fun i => f (8 + i)) hρ (fun i hi => hf (8 + i) (by omega)) z8 w8 y8 v8 x8.1 x8.2

/-! ### The step sizes -/

theorem sqrt_between {t a b : ℝ} (hb : 0 ≤ b) (h1 : a ^ 2 ≤ t) (h2 : t ≤ b ^ 2) : a ≤ Real.sqrt t ∧ Real.sqrt t ≤ b :=
  ⟨Real.le_sqrt_of_sq_le h1, Real.sqrt_le_iff.mpr ⟨hb, h2⟩⟩

/-- The factor computed from relative residuals at a stalling point. -/
theorem factor {r s : ℝ} (hr : |r - 2 / 5| ≤ 1 / 2000) (hs0 : 0 ≤ s) (hs : s ≤ 1 / 1000000000) :
    18000 ≤ Real.sqrt (r / (1 + 1 / 1000000000) / (s / (5 + 1 / 1000000000) + 1 / 1000000000)) ∧
      Real.sqrt (r / (1 + 1 / 1000000000) / (s / (5 + 1 / 1000000000) + 1 / 1000000000)) ≤ 20100 := by
  have h := abs_le.mp hr
  have hs5 : s / (5 + 1 / 1000000000) ≤ 1 / 5000000000 := by rw [div_le_iff₀ (by norm_num)]; linarith
  have hs6 : 0 ≤ s / (5 + 1 / 1000000000) := by positivity
  refine sqrt_between (by norm_num) ?_ ?_
  · rw [le_div_iff₀ (by linarith), le_div_iff₀ (by norm_num)]; nlinarith
  · rw [div_le_iff₀ (by linarith), div_le_iff₀ (by norm_num)]; nlinarith

theorem factor_sharp {r s : ℝ} (hr : |r - 2 / 5| ≤ 1 / 10000000) (hs0 : 0 ≤ s) (hs : s ≤ 1 / 1000000000000) :
    19900 ≤ Real.sqrt (r / (1 + 1 / 1000000000) / (s / (5 + 1 / 1000000000) + 1 / 1000000000)) ∧
      Real.sqrt (r / (1 + 1 / 1000000000) / (s / (5 + 1 / 1000000000) + 1 / 1000000000)) ≤ 20100 := by
  have h := abs_le.mp hr
  have hs5 : s / (5 + 1 / 1000000000) ≤ 1 / 5000000000000 := by rw [div_le_iff₀ (by norm_num)]; linarith
  have hs6 : 0 ≤ s / (5 + 1 / 1000000000) := by positivity
  refine sqrt_between (by norm_num) ?_ ?_
  · rw [le_div_iff₀ (by linarith), le_div_iff₀ (by norm_num)]; nlinarith
  · rw [div_le_iff₀ (by linarith), div_le_iff₀ (by norm_num)]; nlinarith

/-- The factors when the primal residual adds the residuals of rows and bounds. -/
theorem factor_box {r s : ℝ} (hr : |r - 3 / 5| ≤ 1 / 2000) (hs0 : 0 ≤ s) (hs : s ≤ 1 / 1000000000) :
    22000 ≤ Real.sqrt (r / (1 + 1 / 1000000000) / (s / (5 + 1 / 1000000000) + 1 / 1000000000)) ∧
      Real.sqrt (r / (1 + 1 / 1000000000) / (s / (5 + 1 / 1000000000) + 1 / 1000000000)) ≤ 24600 := by
  have h := abs_le.mp hr
  have hs5 : s / (5 + 1 / 1000000000) ≤ 1 / 5000000000 := by rw [div_le_iff₀ (by norm_num)]; linarith
  have hs6 : 0 ≤ s / (5 + 1 / 1000000000) := by positivity
  refine sqrt_between (by norm_num) ?_ ?_
  · rw [le_div_iff₀ (by linarith), le_div_iff₀ (by norm_num)]; nlinarith
  · rw [div_le_iff₀ (by linarith), div_le_iff₀ (by norm_num)]; nlinarith

theorem factor_box_sharp {r s : ℝ} (hr : |r - 3 / 5| ≤ 1 / 10000000) (hs0 : 0 ≤ s) (hs : s ≤ 1 / 1000000000000) :
    24400 ≤ Real.sqrt (r / (1 + 1 / 1000000000) / (s / (5 + 1 / 1000000000) + 1 / 1000000000)) ∧
      Real.sqrt (r / (1 + 1 / 1000000000) / (s / (5 + 1 / 1000000000) + 1 / 1000000000)) ≤ 24600 := by
  have h := abs_le.mp hr
  have hs5 : s / (5 + 1 / 1000000000) ≤ 1 / 5000000000000 := by rw [div_le_iff₀ (by norm_num)]; linarith
  have hs6 : 0 ≤ s / (5 + 1 / 1000000000) := by positivity
  refine sqrt_between (by norm_num) ?_ ?_
  · rw [le_div_iff₀ (by linarith), le_div_iff₀ (by norm_num)]; nlinarith
  · rw [div_le_iff₀ (by linarith), div_le_iff₀ (by norm_num)]; nlinarith

end PolyMPC.AdmmCycle
