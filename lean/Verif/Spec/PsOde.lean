import Mathlib.Algebra.Polynomial.Derivative
import Verif.Spec.CasCheb

/-! # Collocation solutions of initial value problems

Vocabulary; nothing here refers to the code. -/

namespace PolyMPC.Spec
open Polynomial

/-- States `x k` and controls `u k` at the nodes `k = s * N + l`, counted from the end of the horizon `[0, T]` of `S` segments: on each segment the
states are polynomials of degree at most `N` that satisfy `x' = f(x, u)` at all nodes of the segment but its earliest. -/
def Collocates (S N NX : ℕ) (f : (ℕ → ℝ) → (ℕ → ℝ) → ℕ → ℝ) (T : ℝ) (x u : ℕ → ℕ → ℝ) : Prop :=
  ∀ s < S, ∀ i < NX, ∃ Q : ℝ[X], Q.natDegree ≤ N ∧ (∀ l ≤ N, Q.eval (segTime S N 0 T s l) = x (s * N + l) i) ∧
    ∀ j < N, Q.derivative.eval (segTime S N 0 T s j) = f (x (s * N + j)) (u (s * N + j)) i

end PolyMPC.Spec
