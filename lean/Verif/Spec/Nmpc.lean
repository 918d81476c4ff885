import Mathlib.Algebra.BigOperators.Ring.Finset
import Mathlib.Algebra.Field.Defs
import Verif.Spec.GenericOcp

/-! # Vocabulary for tracking controllers

Nothing here refers to the code. -/

namespace PolyMPC.Spec

variable {K : Type} [Field K]

/-- The quadratic form of a weight. -/
def quadForm (n : ℕ) (W : ℕ → ℕ → K) (r : ℕ → K) : K := ∑ i ∈ Finset.range n, ∑ j ∈ Finset.range n, r i * W i j * r j

/-- A linear map given by a matrix, on vectors with `n` entries. -/
def lin (n : ℕ) (M : ℕ → ℕ → K) (v : ℕ → K) : ℕ → K := fun i => if i < n then ∑ j ∈ Finset.range n, M i j * v j else 0

/-- `T` is an inverse of the `n` by `n` matrix `S`. -/
def IsInv (n : ℕ) (S T : ℕ → ℕ → K) : Prop :=
  (∀ i < n, ∀ j < n, ∑ k ∈ Finset.range n, T i k * S k j = if i = j then 1 else 0) ∧
  ∀ i < n, ∀ j < n, ∑ k ∈ Finset.range n, S i k * T k j = if i = j then 1 else 0

/-- The point whose node states are `S x` and whose node controls are `T u`, for `NN` nodes. -/
def linPoint (NX NU NN : ℕ) (S T : ℕ → ℕ → K) (v : ℕ → K) : ℕ → K := fun r =>
  if r < NX * NN then lin NX S (part NX v (r / NX * NX)) (r % NX)
  else lin NU T (part NU v (NX * NN + (r - NX * NN) / NU * NU)) ((r - NX * NN) % NU)

end PolyMPC.Spec
