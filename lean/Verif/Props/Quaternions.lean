import Mathlib.Tactic.LinearCombination
import Mathlib.Tactic.FieldSimp
import Mathlib.Algebra.Order.Star.Real
import Verif.Model.CasadiMath
import Verif.Spec.CasadiMath

/-!
# C58: the quaternion helpers
-/

set_option linter.unusedSectionVars false

namespace PolyMPC.Util
open Spec

section
variable {K : Type*} [Field K]

/-- The product written out. -/
theorem quatMultiply_entries (p q : Fin 4 → K) :
    quatMultiply p q = ![p 0 * q 0 - p 1 * q 1 - p 2 * q 2 - p 3 * q 3, p 0 * q 1 + p 1 * q 0 + p 2 * q 3 - p 3 * q 2,
      p 0 * q 2 - p 1 * q 3 + p 2 * q 0 + p 3 * q 1, p 0 * q 3 + p 1 * q 2 - p 2 * q 1 + p 3 * q 0] := by
  have hv : ∀ q : Fin 4 → K, vecPart q = ![q 1, q 2, q 3] := by
    intro q; funext i; fin_cases i <;> rfl
  have h : quatMultiply p q = Matrix.vecCons (p 0 * q 0 - vecPart p ⬝ᵥ vecPart q)
      (crossProduct (vecPart p) (vecPart q) + p 0 • vecPart q + q 0 • vecPart p) := rfl
  rw [h, hv, hv]
  funext i
  fin_cases i <;> simp [cross_apply, dotProduct, Fin.sum_univ_three] <;> ring

@[simp] theorem asQuat_re (q : Fin 4 → K) : (asQuat q).re = q 0 := rfl
@[simp] theorem asQuat_imI (q : Fin 4 → K) : (asQuat q).imI = q 1 := rfl
@[simp] theorem asQuat_imJ (q : Fin 4 → K) : (asQuat q).imJ = q 2 := rfl
@[simp] theorem asQuat_imK (q : Fin 4 → K) : (asQuat q).imK = q 3 := rfl
@[simp] theorem pureQuat_re (a : Fin 3 → K) : (pureQuat a).re = 0 := rfl
@[simp] theorem pureQuat_imI (a : Fin 3 → K) : (pureQuat a).imI = a 0 := rfl
@[simp] theorem pureQuat_imJ (a : Fin 3 → K) : (pureQuat a).imJ = a 1 := rfl
@[simp] theorem pureQuat_imK (a : Fin 3 → K) : (pureQuat a).imK = a 2 := rfl

theorem quat_ext {p q : Fin 4 → K} (h0 : p 0 = q 0) (h1 : p 1 = q 1) (h2 : p 2 = q 2) (h3 : p 3 = q 3) : p = q := by
  funext i; fin_cases i <;> assumption

theorem vec_ext {a b : Fin 3 → K} (h0 : a 0 = b 0) (h1 : a 1 = b 1) (h2 : a 2 = b 2) : a = b := by
  funext i; fin_cases i <;> assumption

theorem asQuat_injective : Function.Injective (asQuat : (Fin 4 → K) → Quaternion K) := by
  intro p q h
  have h0 := congrArg QuaternionAlgebra.re h
  have h1 := congrArg QuaternionAlgebra.imI h
  have h2 := congrArg QuaternionAlgebra.imJ h
  have h3 := congrArg QuaternionAlgebra.imK h
  exact quat_ext h0 h1 h2 h3

/-- C58. `quat_multiply` is Hamilton's product. -/
theorem quatMultiply_eq (p q : Fin 4 → K) : asQuat (quatMultiply p q) = asQuat p * asQuat q := by
  rw [quatMultiply_entries]
  ext <;> simp

/-- C58. `quat_inverse` is conjugation. -/
theorem quatInverse_eq (q : Fin 4 → K) : asQuat (quatInverse q) = star (asQuat q) := by
  ext <;> simp [quatInverse]

/-- C58. The product is associative. -/
theorem quatMultiply_assoc (p q r : Fin 4 → K) :
    quatMultiply (quatMultiply p q) r = quatMultiply p (quatMultiply q r) := by
  apply asQuat_injective
  simp only [quatMultiply_eq, mul_assoc]

/-- C58. The squared norm is multiplicative. -/
theorem quatMultiply_norm (p q : Fin 4 → K) :
    quatMultiply p q ⬝ᵥ quatMultiply p q = (p ⬝ᵥ p) * (q ⬝ᵥ q) := by
  rw [quatMultiply_entries]
  simp only [dotProduct, Fin.sum_univ_four]
  simp
  ring

theorem quatMultiply_inverse (q : Fin 4 → K) : quatMultiply q (quatInverse q) = ![q ⬝ᵥ q, 0, 0, 0] := by
  rw [quatMultiply_entries]
  refine quat_ext ?_ ?_ ?_ ?_ <;> simp [quatInverse, dotProduct, Fin.sum_univ_four] <;> ring

theorem inverse_quatMultiply (q : Fin 4 → K) : quatMultiply (quatInverse q) q = ![q ⬝ᵥ q, 0, 0, 0] := by
  rw [quatMultiply_entries]
  refine quat_ext ?_ ?_ ?_ ?_ <;> simp [quatInverse, dotProduct, Fin.sum_univ_four] <;> ring

/-- C58. `quat_inverse` is a left inverse, a right inverse, exactly for unit quaternions. -/
theorem quatInverse_iff (q : Fin 4 → K) :
    (quatMultiply q (quatInverse q) = ![1, 0, 0, 0] ↔ q ⬝ᵥ q = 1) ∧
    (quatMultiply (quatInverse q) q = ![1, 0, 0, 0] ↔ q ⬝ᵥ q = 1) := by
  rw [quatMultiply_inverse, inverse_quatMultiply]
  refine ⟨⟨fun h => congrFun h 0, fun h => by rw [h]⟩, ⟨fun h => congrFun h 0, fun h => by rw [h]⟩⟩

/-- C58. `quat_transform` is conjugation of the pure quaternion: the result is pure and is `q a q*`. -/
theorem quatTransform_eq (q : Fin 4 → K) (a : Fin 3 → K) :
    pureQuat (quatTransform q a) = asQuat q * pureQuat a * star (asQuat q) := by
  have hz : (quatMultiply q (quatMultiply (Fin.cons 0 a) (quatInverse q))) 0 = 0 := by
    rw [quatMultiply_entries, quatMultiply_entries]
    rw [show (Fin.cons 0 a : Fin 4 → K) = Matrix.vecCons 0 a from rfl]
    simp [quatInverse]
    ring
  have h1 : pureQuat (quatTransform q a) = asQuat (quatMultiply q (quatMultiply (Fin.cons 0 a) (quatInverse q))) := by
    ext
    · exact hz.symm
    · rfl
    · rfl
    · rfl
  have h2 : asQuat (Fin.cons 0 a : Fin 4 → K) = pureQuat a := rfl
  rw [h1, quatMultiply_eq, quatMultiply_eq, quatInverse_eq, h2, mul_assoc]

/-- The transform written out. -/
theorem quatTransform_entries (q : Fin 4 → K) (a : Fin 3 → K) :
    quatTransform q a =
      ![(q 0 ^ 2 + q 1 ^ 2 - q 2 ^ 2 - q 3 ^ 2) * a 0 + 2 * (q 1 * q 2 - q 0 * q 3) * a 1 + 2 * (q 1 * q 3 + q 0 * q 2) * a 2,
        2 * (q 1 * q 2 + q 0 * q 3) * a 0 + (q 0 ^ 2 - q 1 ^ 2 + q 2 ^ 2 - q 3 ^ 2) * a 1 + 2 * (q 2 * q 3 - q 0 * q 1) * a 2,
        2 * (q 1 * q 3 - q 0 * q 2) * a 0 + 2 * (q 2 * q 3 + q 0 * q 1) * a 1 + (q 0 ^ 2 - q 1 ^ 2 - q 2 ^ 2 + q 3 ^ 2) * a 2] := by
  have h := quatTransform_eq q a
  have h1 := congrArg QuaternionAlgebra.imI h
  have h2 := congrArg QuaternionAlgebra.imJ h
  have h3 := congrArg QuaternionAlgebra.imK h
  simp at h1 h2 h3
  refine vec_ext ?_ ?_ ?_
  · rw [h1]; simp; ring
  · rw [h2]; simp; ring
  · rw [h3]; simp; ring

/-- C58. Transforms compose: the product acts as the right factor followed by the left one. -/
theorem quatTransform_comp (p q : Fin 4 → K) (a : Fin 3 → K) :
    quatTransform (quatMultiply p q) a = quatTransform p (quatTransform q a) := by
  have hinj : Function.Injective (pureQuat : (Fin 3 → K) → Quaternion K) := by
    intro x y h
    exact vec_ext (congrArg QuaternionAlgebra.imI h) (congrArg QuaternionAlgebra.imJ h) (congrArg QuaternionAlgebra.imK h)
  apply hinj
  rw [quatTransform_eq, quatTransform_eq, quatTransform_eq, quatMultiply_eq, star_mul]
  simp only [mul_assoc]

/-- C58. Dot products are scaled by the squared squared norm. -/
theorem quatTransform_dot (q : Fin 4 → K) (a b : Fin 3 → K) :
    quatTransform q a ⬝ᵥ quatTransform q b = (q ⬝ᵥ q) ^ 2 * (a ⬝ᵥ b) := by
  rw [quatTransform_entries, quatTransform_entries]
  simp only [dotProduct, Fin.sum_univ_three, Fin.sum_univ_four]
  simp
  ring

/-- Cross products are scaled by the squared norm. -/
theorem quatTransform_cross (q : Fin 4 → K) (a b : Fin 3 → K) :
    crossProduct (quatTransform q a) (quatTransform q b) = (q ⬝ᵥ q) • quatTransform q (crossProduct a b) := by
  rw [quatTransform_entries, quatTransform_entries, quatTransform_entries]
  refine vec_ext ?_ ?_ ?_ <;> simp [cross_apply, dotProduct, Fin.sum_univ_four] <;> ring

/-- C58. Transforming by a unit quaternion is a rotation. -/
theorem quatTransform_rotation {q : Fin 4 → K} (hq : q ⬝ᵥ q = 1) : IsRotation (quatTransform q) where
  add a b := by
    rw [quatTransform_entries, quatTransform_entries, quatTransform_entries]
    refine vec_ext ?_ ?_ ?_ <;> simp <;> ring
  smul c a := by
    rw [quatTransform_entries, quatTransform_entries]
    refine vec_ext ?_ ?_ ?_ <;> simp <;> ring
  dot a b := by rw [quatTransform_dot, hq, one_pow, one_mul]
  cross a b := by rw [quatTransform_cross, hq, one_smul]

/-- C58. For a unit quaternion, transforming by the inverse undoes the transform. -/
theorem quatTransform_undo {q : Fin 4 → K} (hq : q ⬝ᵥ q = 1) (a : Fin 3 → K) :
    quatTransform (quatInverse q) (quatTransform q a) = a := by
  rw [← quatTransform_comp, ((quatInverse_iff q).2.mpr hq), quatTransform_entries]
  refine vec_ext ?_ ?_ ?_ <;> simp

end

section
variable {K : Type*} [Field K] [LinearOrder K] [IsStrictOrderedRing K]

/-- C58. The transform is a rotation exactly for unit quaternions: with any other norm even lengths change. -/
theorem quatTransform_rotation_iff (q : Fin 4 → K) : IsRotation (quatTransform q) ↔ q ⬝ᵥ q = 1 := by
  refine ⟨fun h => ?_, quatTransform_rotation⟩
  have h1 := h.dot ![1, 0, 0] ![1, 0, 0]
  rw [quatTransform_dot] at h1
  simp [dotProduct, Fin.sum_univ_three] at h1
  have hn : 0 ≤ q ⬝ᵥ q := by
    rw [dotProduct]; exact Finset.sum_nonneg fun i _ => mul_self_nonneg _
  rcases h1 with h1 | h1
  · exact h1
  · rw [dotProduct] at hn; linarith

/-- C58. Two unit quaternions act equally exactly if they agree up to sign. -/
theorem quatTransform_inj {p q : Fin 4 → K} (hp : p ⬝ᵥ p = 1) (hq : q ⬝ᵥ q = 1) :
    quatTransform p = quatTransform q ↔ p = q ∨ p = -q := by
  constructor
  · intro h
    have e : ∀ a, quatTransform (quatMultiply (quatInverse q) p) a = a := by
      intro a
      rw [quatTransform_comp, h, quatTransform_undo hq]
    obtain ⟨r, hr⟩ : ∃ r, r = quatMultiply (quatInverse q) p := ⟨_, rfl⟩
    rw [← hr] at e
    have hpr : p = quatMultiply q r := by
      rw [hr, ← quatMultiply_assoc, (quatInverse_iff q).1.mpr hq, quatMultiply_entries]
      refine quat_ext ?_ ?_ ?_ ?_ <;> simp
    have hrn : r ⬝ᵥ r = 1 := by
      have := quatMultiply_norm q r
      rw [← hpr, hp, hq, one_mul] at this
      exact this.symm
    have e1 := e ![1, 0, 0]
    have e2 := e ![0, 1, 0]
    rw [quatTransform_entries] at e1 e2
    have a1 := congrFun e1 0
    have b1 := congrFun e2 1
    simp at a1 b1
    simp only [dotProduct, Fin.sum_univ_four] at hrn
    have h2 : r 2 = 0 ∧ r 3 = 0 := by
      have : r 2 ^ 2 + r 3 ^ 2 = 0 := by linear_combination (hrn - a1) / 2
      constructor <;> nlinarith [sq_nonneg (r 2), sq_nonneg (r 3)]
    have h1 : r 1 = 0 := by
      have : r 1 ^ 2 + r 3 ^ 2 = 0 := by linear_combination (hrn - b1) / 2
      nlinarith [sq_nonneg (r 1), sq_nonneg (r 3)]
    have h0 : r 0 = 1 ∨ r 0 = -1 := by
      rw [h1, h2.1, h2.2] at hrn
      apply mul_self_eq_one_iff.mp
      linear_combination hrn
    rcases h0 with h0 | h0
    · left
      rw [hpr, quatMultiply_entries, h0, h1, h2.1, h2.2]
      refine quat_ext ?_ ?_ ?_ ?_ <;> simp
    · right
      rw [hpr, quatMultiply_entries, h0, h1, h2.1, h2.2]
      refine quat_ext ?_ ?_ ?_ ?_ <;> simp
  · rintro (h | h)
    · rw [h]
    · funext a
      rw [h, quatTransform_entries, quatTransform_entries]
      refine vec_ext ?_ ?_ ?_ <;> simp

end

/-! ### The elementary rotations -/

theorem T1quat_unit (θ : ℝ) : T1quat θ ⬝ᵥ T1quat θ = 1 := by
  have := Real.cos_sq_add_sin_sq (-θ / 2)
  simp [T1quat, dotProduct, Fin.sum_univ_four]; nlinarith

theorem T2quat_unit (θ : ℝ) : T2quat θ ⬝ᵥ T2quat θ = 1 := by
  have := Real.cos_sq_add_sin_sq (-θ / 2)
  simp [T2quat, dotProduct, Fin.sum_univ_four]; nlinarith

theorem T3quat_unit (θ : ℝ) : T3quat θ ⬝ᵥ T3quat θ = 1 := by
  have := Real.cos_sq_add_sin_sq (-θ / 2)
  simp [T3quat, dotProduct, Fin.sum_univ_four]; nlinarith

theorem half_angle (θ : ℝ) : Real.cos (-θ / 2) ^ 2 - Real.sin (-θ / 2) ^ 2 = Real.cos θ ∧
    2 * (Real.cos (-θ / 2) * Real.sin (-θ / 2)) = -Real.sin θ ∧ Real.cos (-θ / 2) ^ 2 + Real.sin (-θ / 2) ^ 2 = 1 := by
  refine ⟨?_, ?_, Real.cos_sq_add_sin_sq _⟩
  · rw [← Real.cos_two_mul', show 2 * (-θ / 2) = -θ by ring, Real.cos_neg]
  · rw [show 2 * (Real.cos (-θ / 2) * Real.sin (-θ / 2)) = 2 * Real.sin (-θ / 2) * Real.cos (-θ / 2) by ring, ← Real.sin_two_mul,
      show 2 * (-θ / 2) = -θ by ring, Real.sin_neg]

/-- C58. `T1quat`, `T2quat` and `T3quat` express a vector in the frame turned by the given angle about the first, second or third axis. -/
theorem Tquat_transform (θ : ℝ) (a : Fin 3 → ℝ) :
    quatTransform (T1quat θ) a = ![a 0, Real.cos θ * a 1 + Real.sin θ * a 2, -Real.sin θ * a 1 + Real.cos θ * a 2] ∧
    quatTransform (T2quat θ) a = ![Real.cos θ * a 0 - Real.sin θ * a 2, a 1, Real.sin θ * a 0 + Real.cos θ * a 2] ∧
    quatTransform (T3quat θ) a = ![Real.cos θ * a 0 + Real.sin θ * a 1, -Real.sin θ * a 0 + Real.cos θ * a 1, a 2] := by
  obtain ⟨h1, h2, h3⟩ := half_angle θ
  refine ⟨?_, ?_, ?_⟩ <;> rw [quatTransform_entries] <;> refine vec_ext ?_ ?_ ?_ <;>
    simp only [T1quat, T2quat, T3quat, Matrix.cons_val] <;>
    first
      | linear_combination a 0 * h3
      | linear_combination a 1 * h3
      | linear_combination a 2 * h3
      | linear_combination a 1 * h1 - a 2 * h2
      | linear_combination a 1 * h2 + a 2 * h1
      | linear_combination a 0 * h1 + a 2 * h2
      | linear_combination -a 0 * h2 + a 2 * h1
      | linear_combination a 0 * h1 - a 1 * h2
      | linear_combination a 0 * h2 + a 1 * h1

/-- C58. Angles about the same axis add. -/
theorem Tquat_add (α β : ℝ) : quatMultiply (T1quat α) (T1quat β) = T1quat (α + β) ∧
    quatMultiply (T2quat α) (T2quat β) = T2quat (α + β) ∧ quatMultiply (T3quat α) (T3quat β) = T3quat (α + β) := by
  have h : -(α + β) / 2 = -α / 2 + -β / 2 := by ring
  refine ⟨?_, ?_, ?_⟩ <;> rw [quatMultiply_entries] <;> refine quat_ext ?_ ?_ ?_ ?_ <;>
    simp only [T1quat, T2quat, T3quat, Matrix.cons_val] <;>
    first
      | ring1
      | (rw [h, Real.cos_add]; ring1)
      | (rw [h, Real.sin_add]; ring1)

/-- Non-vacuity: a unit quaternion with four non-zero entries and its rotation, and one of norm two, for which `quat_inverse` is not the
inverse. -/
example : (![1/2, 1/2, 1/2, 1/2] : Fin 4 → ℚ) ⬝ᵥ ![1/2, 1/2, 1/2, 1/2] = 1 ∧
    quatTransform (![1/2, 1/2, 1/2, 1/2] : Fin 4 → ℚ) ![1, 2, 3] = ![3, 1, 2] ∧
    quatMultiply (![1, 1, 1, 1] : Fin 4 → ℚ) (quatInverse ![1, 1, 1, 1]) = ![4, 0, 0, 0] := by
  refine ⟨by decide +kernel, ?_, ?_⟩
  · rw [quatTransform_entries]; decide +kernel
  · rw [quatMultiply_inverse]; decide +kernel

end PolyMPC.Util
