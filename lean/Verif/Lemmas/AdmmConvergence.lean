import Verif.Lemmas.QP
import Mathlib.Tactic.LinearCombination
import Mathlib.Tactic.FieldSimp

/-!
# Descent of over-relaxed ADMM, in mathematical terms

One step of over-relaxed ADMM for `min ½xᵀHx + hᵀx` subject to `A x = z`, `z` in an interval box, written without the
solver's data structures.
-/

namespace PolyMPC.AdmmMath
open Matrix PolyMPC.Spec

variable {K : Type*} [Field K] [LinearOrder K] [IsStrictOrderedRing K] {n m : Type*} [Fintype n] [Fintype m]

/-- One step `(x, z, y) → (x', z', y')` with the intermediate points `xt` and `A xt`. -/
structure Step (H : Matrix n n K) (h : n → K) (A : Matrix m n K) (sigma alpha : K) (rho : m → K)
    (x : n → K) (z y : m → K) (xt : n → K) (x' : n → K) (z' y' : m → K) : Prop where
  stat : ∀ i, (H *ᵥ xt) i + h i + (Aᵀ *ᵥ fun j => y j + rho j * ((A *ᵥ xt) j - z j)) i = -(sigma * (xt i - x i))
  hx : ∀ i, x' i = x i + alpha * (xt i - x i)
  hv : ∀ j, rho j * z' j + y' j = rho j * z j + y j + alpha * (rho j * ((A *ᵥ xt) j - z j))

/-- The Lyapunov function. -/
def lyap (sigma : K) (rho : m → K) (x : n → K) (z y : m → K) (xs : n → K) (zs ys : m → K) : K :=
  sigma * ∑ i, (x i - xs i) * (x i - xs i) +
    ∑ j, (rho j)⁻¹ * ((rho j * z j + y j - (rho j * zs j + ys j)) * (rho j * z j + y j - (rho j * zs j + ys j)))

/-- The size of one step. -/
def stepSq (A : Matrix m n K) (sigma : K) (rho : m → K) (x : n → K) (z : m → K) (xt : n → K) : K :=
  sigma * ∑ i, (xt i - x i) * (xt i - x i) + ∑ j, rho j * (((A *ᵥ xt) j - z j) * ((A *ᵥ xt) j - z j))

theorem lyap_nonneg {sigma : K} (hs : 0 ≤ sigma) {rho : m → K} (hr : ∀ j, 0 < rho j) (x : n → K) (z y : m → K)
    (xs : n → K) (zs ys : m → K) : 0 ≤ lyap sigma rho x z y xs zs ys := by
  unfold lyap
  refine add_nonneg (mul_nonneg hs (Finset.sum_nonneg fun i _ => mul_self_nonneg _))
    (Finset.sum_nonneg fun j _ => mul_nonneg (inv_pos.mpr (hr j)).le (mul_self_nonneg _))

theorem stepSq_nonneg (A : Matrix m n K) {sigma : K} (hs : 0 ≤ sigma) {rho : m → K} (hr : ∀ j, 0 < rho j) (x : n → K)
    (z : m → K) (xt : n → K) : 0 ≤ stepSq A sigma rho x z xt := by
  unfold stepSq
  refine add_nonneg (mul_nonneg hs (Finset.sum_nonneg fun i _ => mul_self_nonneg _))
    (Finset.sum_nonneg fun j _ => mul_nonneg (hr j).le (mul_self_nonneg _))

theorem lyap_step {H : Matrix n n K} {h : n → K} {A : Matrix m n K} {sigma alpha : K} {rho : m → K}
    {x : n → K} {z y : m → K} {xt x' : n → K} {z' y' : m → K} (hr : ∀ j, 0 < rho j)
    (st : Step H h A sigma alpha rho x z y xt x' z' y') {xs : n → K} {ys : m → K}
    (hs : ∀ i, (H *ᵥ xs) i + h i + (Aᵀ *ᵥ ys) i = 0) :
    lyap sigma rho x' z' y' xs (A *ᵥ xs) ys = lyap sigma rho x z y xs (A *ᵥ xs) ys
      - 2 * alpha * ((xt - xs) ⬝ᵥ H *ᵥ (xt - xs) + ∑ j, (y j - ys j) * (z j - (A *ᵥ xs) j))
      - alpha * (2 - alpha) * stepSq A sigma rho x z xt := by
  set zt := A *ᵥ xt with hzt
  set zs := A *ᵥ xs with hzs
  -- stationarity, tested against `xt - xs`
  have key : (xt - xs) ⬝ᵥ H *ᵥ (xt - xs) + ∑ j, (y j + rho j * (zt j - z j) - ys j) * (zt j - zs j) =
      -(sigma * ∑ i, (xt i - x i) * (xt i - xs i)) := by
    have e1 : (fun j => y j + rho j * (zt j - z j) - ys j) ⬝ᵥ (A *ᵥ (xt - xs)) =
        ∑ j, (y j + rho j * (zt j - z j) - ys j) * (zt j - zs j) := by
      rw [Matrix.mulVec_sub]; rfl
    have e0 : ∀ w : m → K, w ⬝ᵥ (A *ᵥ (xt - xs)) = (xt - xs) ⬝ᵥ (Aᵀ *ᵥ w) := by
      intro w
      rw [Matrix.dotProduct_mulVec w, ← Matrix.mulVec_transpose, dotProduct_comm]
    rw [← e1, e0, ← dotProduct_add, dotProduct, Finset.mul_sum, ← Finset.sum_neg_distrib]
    refine Finset.sum_congr rfl fun i _ => ?_
    have e2 : (fun j => y j + rho j * (zt j - z j) - ys j) = (fun j => y j + rho j * (zt j - z j)) - ys := rfl
    rw [e2, Matrix.mulVec_sub, Matrix.mulVec_sub]
    simp only [Pi.add_apply, Pi.sub_apply]
    linear_combination (xt i - xs i) * st.stat i - (xt i - xs i) * hs i
  have hsplit : ∑ j, (y j + rho j * (zt j - z j) - ys j) * (zt j - zs j) =
      ∑ j, (y j - ys j) * (z j - zs j) + ∑ j, (zt j - z j) * (rho j * z j + y j - (rho j * zs j + ys j)) +
        ∑ j, rho j * ((zt j - z j) * (zt j - z j)) := by
    rw [← Finset.sum_add_distrib, ← Finset.sum_add_distrib]
    exact Finset.sum_congr rfl fun j _ => by ring
  have hxs : ∑ i, (xt i - x i) * (xt i - xs i) =
      ∑ i, (xt i - x i) * (x i - xs i) + ∑ i, (xt i - x i) * (xt i - x i) := by
    rw [← Finset.sum_add_distrib]
    exact Finset.sum_congr rfl fun j _ => by ring
  have h1 : ∑ i, (x' i - xs i) * (x' i - xs i) = ∑ i, (x i - xs i) * (x i - xs i) +
      2 * alpha * ∑ i, (xt i - x i) * (x i - xs i) + alpha * alpha * ∑ i, (xt i - x i) * (xt i - x i) := by
    rw [Finset.mul_sum, Finset.mul_sum, ← Finset.sum_add_distrib, ← Finset.sum_add_distrib]
    exact Finset.sum_congr rfl fun j _ => by rw [st.hx]; ring
  have h2 : ∑ j, (rho j)⁻¹ * ((rho j * z' j + y' j - (rho j * zs j + ys j)) *
        (rho j * z' j + y' j - (rho j * zs j + ys j))) =
      ∑ j, (rho j)⁻¹ * ((rho j * z j + y j - (rho j * zs j + ys j)) * (rho j * z j + y j - (rho j * zs j + ys j))) +
      2 * alpha * ∑ j, (zt j - z j) * (rho j * z j + y j - (rho j * zs j + ys j)) +
      alpha * alpha * ∑ j, rho j * ((zt j - z j) * (zt j - z j)) := by
    rw [Finset.mul_sum, Finset.mul_sum, ← Finset.sum_add_distrib, ← Finset.sum_add_distrib]
    refine Finset.sum_congr rfl fun j _ => ?_
    rw [st.hv j]
    have h0 : (rho j)⁻¹ * rho j = 1 := inv_mul_cancel₀ (hr j).ne'
    linear_combination (2 * alpha * (zt j - z j) * (rho j * z j + y j - (rho j * zs j + ys j)) +
      alpha * alpha * rho j * (zt j - z j) * (zt j - z j)) * h0
  unfold lyap stepSq
  rw [h1, h2]
  rw [hsplit, hxs] at key
  linear_combination 2 * alpha * key

/-- Monotonicity of the normal cone of an interval box. -/
theorem cone_mono {ι : Type*} [Fintype ι] {l u z y zs ys : ι → K} (h : QP.InNormalCone l u z y)
    (hs : QP.InNormalCone l u zs ys) : 0 ≤ ∑ j, (y j - ys j) * (z j - zs j) := by
  refine Finset.sum_nonneg fun j _ => ?_
  obtain ⟨⟨a1, a2⟩, a3, a4⟩ := h j
  obtain ⟨⟨b1, b2⟩, b3, b4⟩ := hs j
  have p1 : 0 ≤ y j * (z j - zs j) := by
    rcases lt_trichotomy (y j) 0 with hy | hy | hy
    · rw [a4 hy]; nlinarith
    · rw [hy, zero_mul]
    · rw [a3 hy]; nlinarith
  have p2 : 0 ≤ ys j * (zs j - z j) := by
    rcases lt_trichotomy (ys j) 0 with hy | hy | hy
    · rw [b4 hy]; nlinarith
    · rw [hy, zero_mul]
    · rw [b3 hy]; nlinarith
  linarith [p1, p2]

theorem lyap_descent {H : Matrix n n K} {h : n → K} {A : Matrix m n K} {sigma alpha : K} {rho : m → K}
    {x : n → K} {z y : m → K} {xt x' : n → K} {z' y' : m → K} (hH : ∀ v, 0 ≤ v ⬝ᵥ H *ᵥ v) (ha : 0 ≤ alpha)
    (hr : ∀ j, 0 < rho j) {l u : m → K} (hc : QP.InNormalCone l u z y)
    (st : Step H h A sigma alpha rho x z y xt x' z' y') {xs : n → K} {ys : m → K}
    (hs : ∀ i, (H *ᵥ xs) i + h i + (Aᵀ *ᵥ ys) i = 0) (hcs : QP.InNormalCone l u (A *ᵥ xs) ys) :
    lyap sigma rho x' z' y' xs (A *ᵥ xs) ys + alpha * (2 - alpha) * stepSq A sigma rho x z xt ≤
      lyap sigma rho x z y xs (A *ᵥ xs) ys := by
  rw [lyap_step hr st hs]
  have h1 := hH (xt - xs)
  have h2 := cone_mono hc hcs
  have := mul_nonneg ha (add_nonneg h1 h2)
  linarith

/-- The residuals at `(x, z, y)` in terms of the step. -/
theorem step_residuals {H : Matrix n n K} {h : n → K} {A : Matrix m n K} {sigma alpha : K} {rho : m → K}
    {x : n → K} {z y : m → K} {xt x' : n → K} {z' y' : m → K}
    (st : Step H h A sigma alpha rho x z y xt x' z' y') :
    (∀ j, (A *ᵥ x) j - z j = ((A *ᵥ xt) j - z j) - (A *ᵥ (xt - x)) j) ∧
    (∀ i, (H *ᵥ x) i + h i + (Aᵀ *ᵥ y) i =
      -(sigma * (xt i - x i)) - (H *ᵥ (xt - x)) i - (Aᵀ *ᵥ fun j => rho j * ((A *ᵥ xt) j - z j)) i) := by
  constructor
  · intro j
    rw [Matrix.mulVec_sub, Pi.sub_apply]; ring
  · intro i
    have h1 := st.stat i
    have e : (fun j => y j + rho j * ((A *ᵥ xt) j - z j)) = y + fun j => rho j * ((A *ᵥ xt) j - z j) := rfl
    rw [e, Matrix.mulVec_add, Pi.add_apply] at h1
    rw [Matrix.mulVec_sub, Pi.sub_apply]
    linarith

end PolyMPC.AdmmMath
