import Mathlib.Data.Real.Basic
import Mathlib.Data.Int.Log
import Mathlib.Algebra.Order.Round
import Mathlib.Algebra.Order.Archimedean.Real.Basic
import Mathlib.Algebra.BigOperators.Fin
import Mathlib.LinearAlgebra.Matrix.DotProduct

/-!
# Arithmetic with rounding errors

The other files take the scalar type to be a field. This file describes what is assumed of floating-point arithmetic on
finite numbers, for the models with rounding (`Model/AdmmRounded.lean`, `Model/BoxAdmmRounded.lean`).

* A finite `double` is a real number. Overflow, infinities, NaN and underflow are not modelled.
* Comparisons, minimum, maximum, absolute value and negation are exact.
* The compiler may contract a product followed by a sum into one operation and Eigen may add the terms of a
  matrix-vector product in any order (it depends on sizes and on the instruction set), so these are operations of their own.
-/

namespace PolyMPC.Rounding
open Matrix

/-- The operations of the scalar type, and the ones of Eigen and the compiler that combine several of them. Nothing is
assumed of them here. -/
structure Arith where
  add : ℝ → ℝ → ℝ
  sub : ℝ → ℝ → ℝ
  mul : ℝ → ℝ → ℝ
  div : ℝ → ℝ → ℝ
  sqrt : ℝ → ℝ
  /-- `a * b + c`, with one or two roundings -/
  mulAdd : ℝ → ℝ → ℝ → ℝ
  /-- `a * b + c * d`, with two or three roundings -/
  lin2 : ℝ → ℝ → ℝ → ℝ → ℝ
  /-- one entry of a matrix-vector product -/
  dot : (n : ℕ) → (Fin n → ℝ) → (Fin n → ℝ) → ℝ
  /-- the number stored for a decimal literal -/
  lit : ℝ → ℝ

/-- Arithmetic without rounding. -/
noncomputable def Arith.exact (sq : ℝ → ℝ) : Arith where
  add := (· + ·)
  sub := (· - ·)
  mul := (· * ·)
  div := (· / ·)
  sqrt := sq
  mulAdd a b c := a * b + c
  lin2 a b c d := a * b + c * d
  dot _ a b := a ⬝ᵥ b
  lit a := a

/-- Every operation is rounded by `fl`, nothing is contracted, the terms of a product are added one after the other. -/
noncomputable def Arith.plain (fl : ℝ → ℝ) (sq : ℝ → ℝ) : Arith where
  add a b := fl (a + b)
  sub a b := fl (a - b)
  mul a b := fl (a * b)
  div a b := fl (a / b)
  sqrt a := fl (sq a)
  mulAdd a b c := fl (fl (a * b) + c)
  lin2 a b c d := fl (fl (a * b) + fl (c * d))
  dot n a b := Fin.foldl n (fun s i => fl (s + fl (a i * b i))) 0
  lit := fl

/-- As `plain`, with products contracted into the following sum. -/
noncomputable def Arith.contracted (fl : ℝ → ℝ) (sq : ℝ → ℝ) : Arith where
  add a b := fl (a + b)
  sub a b := fl (a - b)
  mul a b := fl (a * b)
  div a b := fl (a / b)
  sqrt a := fl (sq a)
  mulAdd a b c := fl (a * b + c)
  lin2 a b c d := fl (a * b + fl (c * d))
  dot n a b := Fin.foldl n (fun s i => fl (s + a i * b i)) 0
  lit := fl

/-- Rounding to the nearest number with `p` binary digits after the leading one (`p = 52` for `double`), with unbounded
exponent range. -/
noncomputable def roundBits (p : ℕ) (t : ℝ) : ℝ := round (t / 2 ^ (Int.log 2 |t| - p)) * 2 ^ (Int.log 2 |t| - p)

/-- What is assumed of an arithmetic in the theorems: relative errors of at most `ε` for single operations, corresponding bounds for the
combined ones, and a factor `g n` for matrix-vector products with `n` terms. -/
structure Accurate (ar : Arith) (ε : ℝ) (g : ℕ → ℝ) : Prop where
  eps0 : 0 ≤ ε
  eps1 : ε < 1
  g1 : ∀ n, 1 ≤ g n
  add : ∀ a b, |ar.add a b - (a + b)| ≤ ε * |a + b|
  sub : ∀ a b, |ar.sub a b - (a - b)| ≤ ε * |a - b|
  mul : ∀ a b, |ar.mul a b - a * b| ≤ ε * |a * b|
  div : ∀ a b, b ≠ 0 → |ar.div a b - a / b| ≤ ε * |a / b|
  mulAdd : ∀ a b c, |ar.mulAdd a b c - (a * b + c)| ≤ ((1 + ε) ^ 2 - 1) * (|a * b| + |c|)
  lin2 : ∀ a b c d, |ar.lin2 a b c d - (a * b + c * d)| ≤ ((1 + ε) ^ 2 - 1) * (|a * b| + |c * d|)
  dot : ∀ n a b, |ar.dot n a b - a ⬝ᵥ b| ≤ (g n - 1) * ∑ i, |a i * b i|
  lit : ∀ a, |ar.lit a - a| ≤ ε * |a|

/-- What is assumed of an arithmetic in the theorems about bounds that are kept: the numbers of the scalar type are those of `F`,
rounding is monotone and does not change numbers of `F`. -/
structure Ordered (ar : Arith) (F : Set ℝ) : Prop where
  one : 1 ∈ F
  mul_mem : ∀ a b, ar.mul a b ∈ F
  mulAdd_mem : ∀ a b c, ar.mulAdd a b c ∈ F
  sub_mono : ∀ a b c, a ≤ b → ar.sub a c ≤ ar.sub b c
  mul_nonneg : ∀ a b, 0 ≤ a → 0 ≤ b → 0 ≤ ar.mul a b
  mul_le : ∀ a b, 0 ≤ a → a ≤ 1 → 0 ≤ b → b ∈ F → ar.mul a b ≤ b
  mulAdd_le : ∀ a b c, a * b ≤ 0 → c ∈ F → ar.mulAdd a b c ≤ c
  le_mulAdd : ∀ a b c, 0 ≤ a * b → c ∈ F → c ≤ ar.mulAdd a b c

end PolyMPC.Rounding
