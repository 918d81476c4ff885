import Verif.Lemmas.AdmmConvergence
import Mathlib.Analysis.Normed.Group.Basic
import Mathlib.Topology.Algebra.InfiniteSum.Order
import Mathlib.Topology.Algebra.InfiniteSum.Real
import Mathlib.Topology.Instances.Matrix
import Mathlib.Topology.MetricSpace.Sequences
import Mathlib.Analysis.SpecialFunctions.Pow.Real

/-!
# Convergence of over-relaxed ADMM over the reals
-/

namespace PolyMPC.AdmmMath
open Matrix PolyMPC.Spec Filter Topology

variable {n m : Type*} [Fintype n] [Fintype m]

/-- If a nonnegative sequence decreases by at least `e k` at each step, `e` tends to zero. -/
theorem tendsto_of_descent {V e : ℕ → ℝ} (hV : ∀ k, 0 ≤ V k) (he : ∀ k, 0 ≤ e k) (h : ∀ k, V (k + 1) + e k ≤ V k) :
    Tendsto e atTop (𝓝 0) := by
  have hsum : ∀ K, ∑ k ∈ Finset.range K, e k ≤ V 0 := by
    intro K
    have : ∀ K, ∑ k ∈ Finset.range K, e k + V K ≤ V 0 := by
      intro K
      induction K with
      | zero => simp
      | succ K ih => rw [Finset.sum_range_succ]; linarith [h K]
    linarith [this K, hV K]
  exact (summable_of_sum_range_le he hsum).tendsto_atTop_zero

theorem tendsto_zero_of_sq {e : ℕ → ℝ} (h : Tendsto (fun k => e k * e k) atTop (𝓝 0)) : Tendsto e atTop (𝓝 0) := by
  have h2 := (Real.continuous_sqrt.tendsto 0).comp h
  rw [Real.sqrt_zero] at h2
  have : (Real.sqrt ∘ fun k => e k * e k) = fun k => |e k| := by
    funext k; exact Real.sqrt_mul_self_eq_abs _
  rw [this] at h2
  exact (tendsto_zero_iff_abs_tendsto_zero _).mpr h2

variable {H : Matrix n n ℝ} {h : n → ℝ} {A : Matrix m n ℝ} {sigma alpha : ℝ} {rho : m → ℝ} {l u : m → ℝ}

/-- An infinite run of ADMM. -/
structure Run (H : Matrix n n ℝ) (h : n → ℝ) (A : Matrix m n ℝ) (sigma alpha : ℝ) (rho : m → ℝ) (l u : m → ℝ)
    (x : ℕ → n → ℝ) (z y : ℕ → m → ℝ) (xt : ℕ → n → ℝ) : Prop where
  step : ∀ k, Step H h A sigma alpha rho (x k) (z k) (y k) (xt k) (x (k + 1)) (z (k + 1)) (y (k + 1))
  cone : ∀ k, QP.InNormalCone l u (z k) (y k)

variable {x : ℕ → n → ℝ} {z y : ℕ → m → ℝ} {xt : ℕ → n → ℝ}

theorem stepSq_tendsto (hH : ∀ v, 0 ≤ v ⬝ᵥ H *ᵥ v) (ha : 0 < alpha) (ha2 : alpha < 2) (hs : 0 < sigma)
    (hr : ∀ j, 0 < rho j) (run : Run H h A sigma alpha rho l u x z y xt) {xs : n → ℝ} {ys : m → ℝ}
    (hstat : ∀ i, (H *ᵥ xs) i + h i + (Aᵀ *ᵥ ys) i = 0) (hcs : QP.InNormalCone l u (A *ᵥ xs) ys) :
    Tendsto (fun k => stepSq A sigma rho (x k) (z k) (xt k)) atTop (𝓝 0) := by
  have hc : 0 < alpha * (2 - alpha) := mul_pos ha (by linarith)
  have h1 : Tendsto (fun k => alpha * (2 - alpha) * stepSq A sigma rho (x k) (z k) (xt k)) atTop (𝓝 0) :=
    tendsto_of_descent (V := fun k => lyap sigma rho (x k) (z k) (y k) xs (A *ᵥ xs) ys)
      (fun k => lyap_nonneg hs.le hr _ _ _ _ _ _)
      (fun k => mul_nonneg hc.le (stepSq_nonneg _ hs.le hr _ _ _))
      (fun k => lyap_descent hH ha.le hr (run.cone k) (run.step k) hstat hcs)
  have h2 := h1.const_mul (alpha * (2 - alpha))⁻¹
  rw [mul_zero] at h2
  refine h2.congr fun k => ?_
  rw [← mul_assoc, inv_mul_cancel₀ hc.ne', one_mul]

theorem parts_tendsto (hs : 0 < sigma) (hr : ∀ j, 0 < rho j)
    (h0 : Tendsto (fun k => stepSq A sigma rho (x k) (z k) (xt k)) atTop (𝓝 0)) :
    (∀ i, Tendsto (fun k => xt k i - x k i) atTop (𝓝 0)) ∧
    (∀ j, Tendsto (fun k => (A *ᵥ xt k) j - z k j) atTop (𝓝 0)) := by
  have nn1 : ∀ k, 0 ≤ ∑ i, (xt k i - x k i) * (xt k i - x k i) := fun k =>
    Finset.sum_nonneg fun i _ => mul_self_nonneg _
  have nn2 : ∀ k, 0 ≤ ∑ j, rho j * (((A *ᵥ xt k) j - z k j) * ((A *ᵥ xt k) j - z k j)) := fun k =>
    Finset.sum_nonneg fun j _ => mul_nonneg (hr j).le (mul_self_nonneg _)
  constructor
  · intro i
    apply tendsto_zero_of_sq
    have h1 := h0.const_mul sigma⁻¹
    rw [mul_zero] at h1
    refine squeeze_zero (fun k => mul_self_nonneg _) (fun k => ?_) h1
    have h2 : (xt k i - x k i) * (xt k i - x k i) ≤ ∑ i, (xt k i - x k i) * (xt k i - x k i) :=
      Finset.single_le_sum (f := fun i => (xt k i - x k i) * (xt k i - x k i)) (fun i _ => mul_self_nonneg _)
        (Finset.mem_univ i)
    refine h2.trans ?_
    unfold stepSq
    rw [mul_add, ← mul_assoc, inv_mul_cancel₀ hs.ne', one_mul]
    exact le_add_of_nonneg_right (mul_nonneg (inv_pos.mpr hs).le (nn2 k))
  · intro j
    apply tendsto_zero_of_sq
    have h1 := h0.const_mul (rho j)⁻¹
    rw [mul_zero] at h1
    refine squeeze_zero (fun k => mul_self_nonneg _) (fun k => ?_) h1
    have h2 : rho j * (((A *ᵥ xt k) j - z k j) * ((A *ᵥ xt k) j - z k j)) ≤
        ∑ j, rho j * (((A *ᵥ xt k) j - z k j) * ((A *ᵥ xt k) j - z k j)) :=
      Finset.single_le_sum (f := fun j => rho j * (((A *ᵥ xt k) j - z k j) * ((A *ᵥ xt k) j - z k j)))
        (fun i _ => mul_nonneg (hr i).le (mul_self_nonneg _)) (Finset.mem_univ j)
    have h3 : rho j * (((A *ᵥ xt k) j - z k j) * ((A *ᵥ xt k) j - z k j)) ≤ stepSq A sigma rho (x k) (z k) (xt k) := by
      unfold stepSq
      linarith [mul_nonneg hs.le (nn1 k)]
    have h4 := mul_le_mul_of_nonneg_left h3 (inv_pos.mpr (hr j)).le
    rwa [← mul_assoc, inv_mul_cancel₀ (hr j).ne', one_mul] at h4

theorem mulVec_tendsto_zero {p q : Type*} [Fintype p] [Fintype q] (B : Matrix p q ℝ) {v : ℕ → q → ℝ}
    (hv : ∀ i, Tendsto (fun k => v k i) atTop (𝓝 0)) (i : p) : Tendsto (fun k => (B *ᵥ v k) i) atTop (𝓝 0) := by
  have : Tendsto (fun k => ∑ j, B i j * v k j) atTop (𝓝 (∑ j, B i j * 0)) :=
    tendsto_finsetSum _ fun j _ => (hv j).const_mul _
  simp only [mul_zero, Finset.sum_const_zero] at this
  exact this

theorem mulVec_continuous {p q : Type*} [Fintype p] [Fintype q] (B : Matrix p q ℝ) :
    Continuous fun w : q → ℝ => B *ᵥ w := Continuous.matrix_mulVec continuous_const continuous_id

/-- Both residuals of an infinite run tend to zero if the problem has a KKT point. -/
theorem residuals_tendsto (hH : ∀ v, 0 ≤ v ⬝ᵥ H *ᵥ v) (ha : 0 < alpha) (ha2 : alpha < 2) (hs : 0 < sigma)
    (hr : ∀ j, 0 < rho j) (run : Run H h A sigma alpha rho l u x z y xt) {xs : n → ℝ} {ys : m → ℝ}
    (hstat : ∀ i, (H *ᵥ xs) i + h i + (Aᵀ *ᵥ ys) i = 0) (hcs : QP.InNormalCone l u (A *ᵥ xs) ys) :
    (∀ j, Tendsto (fun k => (A *ᵥ x k) j - z k j) atTop (𝓝 0)) ∧
    (∀ i, Tendsto (fun k => (H *ᵥ x k) i + h i + (Aᵀ *ᵥ y k) i) atTop (𝓝 0)) := by
  obtain ⟨h1, h2⟩ := parts_tendsto hs hr (stepSq_tendsto hH ha ha2 hs hr run hstat hcs)
  constructor
  · intro j
    have := (h2 j).sub (mulVec_tendsto_zero A (v := fun k => xt k - x k) h1 j)
    rw [sub_zero] at this
    exact this.congr fun k => ((step_residuals (run.step k)).1 j).symm
  · intro i
    have h3 : ∀ j, Tendsto (fun k => rho j * ((A *ᵥ xt k) j - z k j)) atTop (𝓝 0) := by
      intro j
      have := (h2 j).const_mul (rho j)
      rwa [mul_zero] at this
    have h4 := ((h1 i).const_mul sigma).neg
    have := (h4.sub (mulVec_tendsto_zero H (v := fun k => xt k - x k) h1 i)).sub (mulVec_tendsto_zero Aᵀ h3 i)
    rw [mul_zero, neg_zero, sub_zero, sub_zero] at this
    exact this.congr fun k => ((step_residuals (run.step k)).2 i).symm

/-- In terms of `v = rho z + y`, a point of the normal cone graph is `z = clip (v / rho)`. -/
theorem clip_of_cone {l u z y r : ℝ} (hr : 0 < r) (h : (l ≤ z ∧ z ≤ u) ∧ (0 < y → z = u) ∧ (y < 0 → z = l)) :
    min (max ((r * z + y) / r) l) u = z := by
  obtain ⟨⟨b1, b2⟩, c1, c2⟩ := h
  have e : (r * z + y) / r = z + y / r := by field_simp
  rw [e]
  rcases lt_trichotomy y 0 with hy | hy | hy
  · have := div_neg_of_neg_of_pos hy hr
    rw [c2 hy, max_eq_right (by linarith), min_eq_left]
    rw [← c2 hy]; exact b2
  · rw [hy, zero_div, add_zero, max_eq_left b1, min_eq_left b2]
  · have := div_pos hy hr
    rw [c1 hy, max_eq_left, min_eq_right (by linarith)]
    rw [← c1 hy]; linarith

theorem cone_of_clip {l u v r : ℝ} (hr : 0 < r) (hlu : l ≤ u) :
    (l ≤ min (max (v / r) l) u ∧ min (max (v / r) l) u ≤ u) ∧
    (0 < v - r * min (max (v / r) l) u → min (max (v / r) l) u = u) ∧
    (v - r * min (max (v / r) l) u < 0 → min (max (v / r) l) u = l) := by
  refine ⟨⟨le_min (le_max_right _ _) hlu, min_le_right _ _⟩, fun h => ?_, fun h => ?_⟩
  · rcases min_choice (max (v / r) l) u with h1 | h1
    · exfalso
      rw [h1] at h
      have : v / r ≤ max (v / r) l := le_max_left _ _
      rw [div_le_iff₀ hr] at this
      linarith
    · exact h1
  · rcases le_total (v / r) l with h1 | h1
    · rw [max_eq_right h1, min_eq_left hlu]
    · exfalso
      rw [max_eq_left h1] at h
      have : min (v / r) u ≤ v / r := min_le_left _ _
      rw [le_div_iff₀ hr] at this
      linarith

/-- The iterates of an infinite run converge to a KKT point, if there is one. -/
theorem iterates_converge (hH : ∀ v, 0 ≤ v ⬝ᵥ H *ᵥ v) (ha : 0 < alpha) (ha2 : alpha < 2) (hs : 0 < sigma)
    (hr : ∀ j, 0 < rho j) (run : Run H h A sigma alpha rho l u x z y xt) {xs : n → ℝ} {ys : m → ℝ}
    (hstat : ∀ i, (H *ᵥ xs) i + h i + (Aᵀ *ᵥ ys) i = 0) (hcs : QP.InNormalCone l u (A *ᵥ xs) ys) :
    ∃ (xl : n → ℝ) (yl : m → ℝ), (∀ i, (H *ᵥ xl) i + h i + (Aᵀ *ᵥ yl) i = 0) ∧
      QP.InNormalCone l u (A *ᵥ xl) yl ∧ Tendsto x atTop (𝓝 xl) ∧ Tendsto y atTop (𝓝 yl) ∧
      Tendsto z atTop (𝓝 (A *ᵥ xl)) := by
  classical
  have hlu : ∀ j, l j ≤ u j := fun j => (hcs j).1.1.trans (hcs j).1.2
  have hanti : ∀ {xs' : n → ℝ} {ys' : m → ℝ}, (∀ i, (H *ᵥ xs') i + h i + (Aᵀ *ᵥ ys') i = 0) →
      QP.InNormalCone l u (A *ᵥ xs') ys' →
      Antitone fun k => lyap sigma rho (x k) (z k) (y k) xs' (A *ᵥ xs') ys' := by
    intro xs' ys' h1 h2
    refine antitone_nat_of_succ_le fun k => ?_
    have := lyap_descent hH ha.le hr (run.cone k) (run.step k) h1 h2
    have h3 := mul_nonneg (mul_pos ha (by linarith : 0 < 2 - alpha)).le (stepSq_nonneg A hs.le hr (x k) (z k) (xt k))
    linarith
  -- entries are controlled by the Lyapunov function
  have hxb : ∀ (xs' : n → ℝ) (ys' : m → ℝ) k i, (x k i - xs' i) * (x k i - xs' i) ≤
      sigma⁻¹ * lyap sigma rho (x k) (z k) (y k) xs' (A *ᵥ xs') ys' := by
    intro xs' ys' k i
    have h2 : (x k i - xs' i) * (x k i - xs' i) ≤ ∑ i, (x k i - xs' i) * (x k i - xs' i) :=
      Finset.single_le_sum (f := fun i => (x k i - xs' i) * (x k i - xs' i)) (fun i _ => mul_self_nonneg _)
        (Finset.mem_univ i)
    refine h2.trans ?_
    unfold lyap
    rw [mul_add, ← mul_assoc, inv_mul_cancel₀ hs.ne', one_mul]
    exact le_add_of_nonneg_right (mul_nonneg (inv_pos.mpr hs).le (Finset.sum_nonneg fun j _ =>
      mul_nonneg (inv_pos.mpr (hr j)).le (mul_self_nonneg _)))
  set v : ℕ → m → ℝ := fun k j => rho j * z k j + y k j with hv
  have hvb : ∀ (xs' : n → ℝ) (ys' : m → ℝ) k j,
      (v k j - (rho j * (A *ᵥ xs') j + ys' j)) * (v k j - (rho j * (A *ᵥ xs') j + ys' j)) ≤
      rho j * lyap sigma rho (x k) (z k) (y k) xs' (A *ᵥ xs') ys' := by
    intro xs' ys' k j
    have h2 : (rho j)⁻¹ * ((v k j - (rho j * (A *ᵥ xs') j + ys' j)) * (v k j - (rho j * (A *ᵥ xs') j + ys' j))) ≤
        lyap sigma rho (x k) (z k) (y k) xs' (A *ᵥ xs') ys' := by
      unfold lyap
      refine (Finset.single_le_sum (f := fun j => (rho j)⁻¹ * ((v k j - (rho j * (A *ᵥ xs') j + ys' j)) *
        (v k j - (rho j * (A *ᵥ xs') j + ys' j))))
        (fun i _ => mul_nonneg (inv_pos.mpr (hr i)).le (mul_self_nonneg _)) (Finset.mem_univ j)).trans ?_
      exact le_add_of_nonneg_left (mul_nonneg hs.le (Finset.sum_nonneg fun i _ => mul_self_nonneg _))
    have h3 := mul_le_mul_of_nonneg_left h2 (hr j).le
    rwa [← mul_assoc, mul_inv_cancel₀ (hr j).ne', one_mul] at h3
  -- a convergent subsequence of `(x, v)`
  have habs : ∀ {a b : ℝ}, a * a ≤ b → |a| ≤ b + 1 := by
    intro a b hab
    rw [abs_le]
    constructor <;> nlinarith [mul_self_nonneg (a - 1), mul_self_nonneg (a + 1)]
  set V0 := lyap sigma rho (x 0) (z 0) (y 0) xs (A *ᵥ xs) ys with hV0
  set R : ℝ := (sigma⁻¹ * V0 + 1 + ∑ i, |xs i|) + ∑ j, (rho j * V0 + 1 + |rho j * (A *ᵥ xs) j + ys j|) with hR
  have hV0n : 0 ≤ V0 := lyap_nonneg hs.le hr _ _ _ _ _ _
  have hR2 : 0 ≤ ∑ j, (rho j * V0 + 1 + |rho j * (A *ᵥ xs) j + ys j|) :=
    Finset.sum_nonneg fun j _ => add_nonneg (add_nonneg (mul_nonneg (hr j).le hV0n) zero_le_one) (abs_nonneg _)
  have hR1 : 0 ≤ sigma⁻¹ * V0 + 1 + ∑ i, |xs i| :=
    add_nonneg (add_nonneg (mul_nonneg (inv_pos.mpr hs).le hV0n) zero_le_one)
      (Finset.sum_nonneg fun i _ => abs_nonneg _)
  have hxbd : ∀ k, x k ∈ Metric.closedBall (0 : n → ℝ) R := by
    intro k
    rw [mem_closedBall_zero_iff, pi_norm_le_iff_of_nonneg (by linarith)]
    intro i
    rw [Real.norm_eq_abs]
    have h1 := hxb xs ys k i
    have h2 := mul_le_mul_of_nonneg_left (hanti hstat hcs (Nat.zero_le k)) (inv_pos.mpr hs).le
    have h3 := habs (h1.trans h2)
    have h4 : |xs i| ≤ ∑ i, |xs i| := Finset.single_le_sum (f := fun i => |xs i|) (fun i _ => abs_nonneg _)
      (Finset.mem_univ i)
    have h5 : |x k i| ≤ |x k i - xs i| + |xs i| := by
      have := abs_add_le (x k i - xs i) (xs i)
      rwa [sub_add_cancel] at this
    linarith
  have hvbd : ∀ k, v k ∈ Metric.closedBall (0 : m → ℝ) R := by
    intro k
    rw [mem_closedBall_zero_iff, pi_norm_le_iff_of_nonneg (by linarith)]
    intro j
    rw [Real.norm_eq_abs]
    have h1 := hvb xs ys k j
    have h2 := mul_le_mul_of_nonneg_left (hanti hstat hcs (Nat.zero_le k)) (hr j).le
    have h3 := habs (h1.trans h2)
    have h4 : rho j * V0 + 1 + |rho j * (A *ᵥ xs) j + ys j| ≤
        ∑ j, (rho j * V0 + 1 + |rho j * (A *ᵥ xs) j + ys j|) :=
      Finset.single_le_sum (f := fun j => rho j * V0 + 1 + |rho j * (A *ᵥ xs) j + ys j|)
        (fun j _ => add_nonneg (add_nonneg (mul_nonneg (hr j).le hV0n) zero_le_one) (abs_nonneg _))
        (Finset.mem_univ j)
    have h5 : |v k j| ≤ |v k j - (rho j * (A *ᵥ xs) j + ys j)| + |rho j * (A *ᵥ xs) j + ys j| := by
      have := abs_add_le (v k j - (rho j * (A *ᵥ xs) j + ys j)) (rho j * (A *ᵥ xs) j + ys j)
      rwa [sub_add_cancel] at this
    linarith
  obtain ⟨⟨xl, vl⟩, _, φ, hφ, hlim⟩ := tendsto_subseq_of_bounded
    (s := Metric.closedBall (0 : n → ℝ) R ×ˢ Metric.closedBall (0 : m → ℝ) R)
    (Metric.isBounded_closedBall.prod Metric.isBounded_closedBall) (x := fun k => (x k, v k))
    (fun k => ⟨hxbd k, hvbd k⟩)
  have hxlim : Tendsto (fun k => x (φ k)) atTop (𝓝 xl) := (continuous_fst.tendsto _).comp hlim
  have hvlim : Tendsto (fun k => v (φ k)) atTop (𝓝 vl) := (continuous_snd.tendsto _).comp hlim
  -- `z` and `y` are continuous functions of `v`
  set Z : (m → ℝ) → m → ℝ := fun w j => min (max (w j / rho j) (l j)) (u j) with hZ
  have hZc : Continuous Z := by
    refine continuous_pi fun j => ?_
    exact (((continuous_apply j).div_const _).max continuous_const).min continuous_const
  have hzv : ∀ k, z k = Z (v k) := by
    intro k; funext j
    exact (clip_of_cone (hr j) (run.cone k j)).symm
  set Y : (m → ℝ) → m → ℝ := fun w j => w j - rho j * Z w j with hY
  have hYc : Continuous Y := by
    refine continuous_pi fun j => ?_
    exact (continuous_apply j).sub (continuous_const.mul ((continuous_apply j).comp hZc))
  have hyv : ∀ k, y k = Y (v k) := by
    intro k; funext j
    simp only [hY]
    rw [← hzv k]
    simp [hv]
  have hzlim : Tendsto (fun k => z (φ k)) atTop (𝓝 (Z vl)) := by
    have := (hZc.tendsto vl).comp hvlim
    exact this.congr fun k => (hzv _).symm
  have hylim : Tendsto (fun k => y (φ k)) atTop (𝓝 (Y vl)) := by
    have := (hYc.tendsto vl).comp hvlim
    exact this.congr fun k => (hyv _).symm
  have hcone : QP.InNormalCone l u (Z vl) (Y vl) := fun j => cone_of_clip (hr j) (hlu j)
  obtain ⟨r1, r2⟩ := residuals_tendsto hH ha ha2 hs hr run hstat hcs
  have hφt : Tendsto φ atTop atTop := hφ.tendsto_atTop
  have hA : A *ᵥ xl = Z vl := by
    funext j
    have h1 : Tendsto (fun k => (A *ᵥ x (φ k)) j - z (φ k) j) atTop (𝓝 ((A *ᵥ xl) j - Z vl j)) := by
      refine Tendsto.sub ?_ ?_
      · exact ((continuous_apply j).tendsto _).comp (((mulVec_continuous A).tendsto xl).comp hxlim)
      · exact ((continuous_apply j).tendsto _).comp hzlim
    have h2 := tendsto_nhds_unique h1 ((r1 j).comp hφt)
    linarith
  have hst : ∀ i, (H *ᵥ xl) i + h i + (Aᵀ *ᵥ Y vl) i = 0 := by
    intro i
    have h1 : Tendsto (fun k => (H *ᵥ x (φ k)) i + h i + (Aᵀ *ᵥ y (φ k)) i) atTop
        (𝓝 ((H *ᵥ xl) i + h i + (Aᵀ *ᵥ Y vl) i)) := by
      refine Tendsto.add (Tendsto.add ?_ tendsto_const_nhds) ?_
      · exact ((continuous_apply i).tendsto _).comp (((mulVec_continuous H).tendsto xl).comp hxlim)
      · exact ((continuous_apply i).tendsto _).comp (((mulVec_continuous Aᵀ).tendsto _).comp hylim)
    exact tendsto_nhds_unique h1 ((r2 i).comp hφt)
  rw [← hA] at hcone
  -- the Lyapunov function at the limit point tends to zero
  have hvl : ∀ j, rho j * (A *ᵥ xl) j + Y vl j = vl j := by
    intro j; rw [hA]; simp [hY]
  have hsub : Tendsto (fun k => lyap sigma rho (x (φ k)) (z (φ k)) (y (φ k)) xl (A *ᵥ xl) (Y vl)) atTop (𝓝 0) := by
    have hcont : Continuous fun p : (n → ℝ) × (m → ℝ) =>
        sigma * ∑ i, (p.1 i - xl i) * (p.1 i - xl i) + ∑ j, (rho j)⁻¹ * ((p.2 j - vl j) * (p.2 j - vl j)) := by
      fun_prop
    have := (hcont.tendsto (xl, vl)).comp hlim
    simp only [sub_self, mul_zero, Finset.sum_const_zero, add_zero] at this
    refine this.congr fun k => ?_
    simp only [Function.comp, lyap, hvl, hv]
  have hfull : Tendsto (fun k => lyap sigma rho (x k) (z k) (y k) xl (A *ᵥ xl) (Y vl)) atTop (𝓝 0) := by
    rw [Metric.tendsto_atTop] at hsub ⊢
    intro e he
    obtain ⟨k0, hk0⟩ := hsub e he
    refine ⟨φ k0, fun k hk => ?_⟩
    have h1 := hk0 k0 le_rfl
    have n1 := lyap_nonneg hs.le hr (x k) (z k) (y k) xl (A *ᵥ xl) (Y vl)
    have n2 := lyap_nonneg hs.le hr (x (φ k0)) (z (φ k0)) (y (φ k0)) xl (A *ᵥ xl) (Y vl)
    rw [Real.dist_eq, sub_zero, abs_of_nonneg n2] at h1
    rw [Real.dist_eq, sub_zero, abs_of_nonneg n1]
    exact lt_of_le_of_lt (hanti hst hcone hk) h1
  have hxfull : Tendsto x atTop (𝓝 xl) := by
    rw [tendsto_pi_nhds]
    intro i
    have h1 := hfull.const_mul sigma⁻¹
    rw [mul_zero] at h1
    have h2 : Tendsto (fun k => x k i - xl i) atTop (𝓝 0) :=
      tendsto_zero_of_sq (squeeze_zero (fun k => mul_self_nonneg _) (fun k => hxb xl (Y vl) k i) h1)
    have := h2.add_const (xl i)
    simpa using this
  have hvfull : Tendsto v atTop (𝓝 vl) := by
    rw [tendsto_pi_nhds]
    intro j
    have h1 := hfull.const_mul (rho j)
    rw [mul_zero] at h1
    have h2 : Tendsto (fun k => v k j - vl j) atTop (𝓝 0) := by
      refine tendsto_zero_of_sq (squeeze_zero (fun k => mul_self_nonneg _) (fun k => ?_) h1)
      have := hvb xl (Y vl) k j
      rwa [hvl] at this
    have := h2.add_const (vl j)
    simpa using this
  refine ⟨xl, Y vl, hst, hcone, hxfull, ?_, ?_⟩
  · exact ((hYc.tendsto vl).comp hvfull).congr fun k => (hyv _).symm
  · rw [hA]; exact ((hZc.tendsto vl).comp hvfull).congr fun k => (hzv _).symm

end PolyMPC.AdmmMath
