import Mathlib.Algebra.Quaternion
import Mathlib.Algebra.Polynomial.Derivative
import Mathlib.LinearAlgebra.CrossProduct

/-!
# What the numeric helpers should compute

Stated with Mathlib's quaternions, the exponential series, polynomial antiderivatives and list reversal; nothing here mentions the model.
-/

namespace PolyMPC.Spec
open Polynomial

/-- Four numbers as a quaternion. -/
def asQuat {K : Type*} [CommRing K] (q : Fin 4 → K) : Quaternion K := ⟨q 0, q 1, q 2, q 3⟩

/-- Three numbers as a pure quaternion. -/
def pureQuat {K : Type*} [CommRing K] (a : Fin 3 → K) : Quaternion K := ⟨0, a 0, a 1, a 2⟩

/-- A rotation: linear, preserving all dot products and all cross products. -/
structure IsRotation {K : Type*} [Field K] (R : (Fin 3 → K) → (Fin 3 → K)) : Prop where
  add : ∀ a b, R (a + b) = R a + R b
  smul : ∀ (c : K) a, R (c • a) = c • R a
  dot : ∀ a b, R a ⬝ᵥ R b = a ⬝ᵥ b
  cross : ∀ a b, R (crossProduct a b) = crossProduct (R a) (R b)

/-- The Taylor polynomial of degree `n` of `exp (h A) x` in `h`. -/
def expTaylor {K V : Type*} [Field K] [AddCommGroup V] [Module K V] (n : ℕ) (A : V →ₗ[K] V) (h : K) (x : V) : V :=
  ∑ k ∈ Finset.range (n + 1), (h ^ k / (k.factorial : K)) • (A ^ k) x

/-- The Taylor polynomial of degree `n` of `∫₀ʰ exp (s A) b ds` in `h`. -/
def expIntTaylor {K V : Type*} [Field K] [AddCommGroup V] [Module K V] (n : ℕ) (A : V →ₗ[K] V) (h : K) (b : V) : V :=
  ∑ k ∈ Finset.range n, (h ^ (k + 1) / ((k + 1).factorial : K)) • (A ^ k) b

end PolyMPC.Spec
