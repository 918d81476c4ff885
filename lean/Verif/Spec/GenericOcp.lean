import Mathlib.Algebra.Order.Field.Basic

/-! # Vocabulary for optimal control problems with scaled variables

Nothing here refers to the code. -/

namespace PolyMPC.Spec

/-- A value within bounds; an absent bound is infinite. -/
def within {K : Type} [LE K] (lb ub : Option K) (v : K) : Prop := (∀ l, lb = some l → l ≤ v) ∧ ∀ u, ub = some u → v ≤ u

/-- `n` values within their bounds. -/
def allWithin {K : Type} [LE K] (n : ℕ) (lb ub : ℕ → Option K) (g : ℕ → K) : Prop := ∀ r < n, within (lb r) (ub r) (g r)

/-- The vector of the `n` entries from `a` on. -/
def part {K : Type} [Zero K] (n : ℕ) (v : ℕ → K) (a : ℕ) : ℕ → K := fun i => if i < n then v (a + i) else 0

/-- The point with `nx` states, `nu` controls and the parameters multiplied by the factors `sx`, `su`, `sp`; what follows is left alone. -/
def rescale {K : Type} [Mul K] (NX nx NU nu NP : ℕ) (sx su sp v : ℕ → K) : ℕ → K := fun i =>
  if i < nx * NX then sx (i % NX) * v i else
  if i < nx * NX + nu * NU then su ((i - nx * NX) % NU) * v i else
  if i < nx * NX + nu * NU + NP then sp (i - nx * NX - nu * NU) * v i else v i

end PolyMPC.Spec
