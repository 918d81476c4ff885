import Mathlib.Algebra.Polynomial.Eval.Degree
import Mathlib.Order.WithBot

/-!
# What a user of the MPC wrapper sees

Bounds, guesses and solution belong to the nodes of the horizon, numbered by increasing time: node `0` is the current state, node `n` the end
of the horizon.
-/

namespace PolyMPC.Spec

/-- Data of a controller with `n + 1` nodes. -/
structure Controller (n NX NU NP NG : ℕ) (K : Type) where
  xlb : Fin (n + 1) → Fin NX → K
  xub : Fin (n + 1) → Fin NX → K
  ulb : Fin (n + 1) → Fin NU → K
  uub : Fin (n + 1) → Fin NU → K
  plb : Fin NP → K
  pub : Fin NP → K
  glb : Fin (n + 1) → Fin NG → K
  gub : Fin (n + 1) → Fin NG → K
  /-- states, controls, parameters: guess before `solve`, solution after it -/
  x : Fin (n + 1) → Fin NX → K
  u : Fin (n + 1) → Fin NU → K
  p : Fin NP → K
  lam : ℕ → K
  par : ℕ → K
  t0 : K
  tf : K

/-- Limits of a controller with `n + 1` nodes, some of which may be absent. -/
structure LimitsInf (n NX NU NP NG : ℕ) (K : Type) where
  xlb : Fin (n + 1) → Fin NX → WithBot K
  xub : Fin (n + 1) → Fin NX → WithTop K
  ulb : Fin (n + 1) → Fin NU → WithBot K
  uub : Fin (n + 1) → Fin NU → WithTop K
  plb : Fin NP → WithBot K
  pub : Fin NP → WithTop K
  glb : Fin (n + 1) → Fin NG → WithBot K
  gub : Fin (n + 1) → Fin NG → WithTop K

/-- The same vector at every node. -/
def everywhere {n m : ℕ} {K : Type} (v : ℕ → K) : Fin (n + 1) → Fin m → K := fun _ i => v i

/-- A new value at one node. -/
def atNode {n m : ℕ} {K : Type} (f : Fin (n + 1) → Fin m → K) (k : Fin (n + 1)) (v : ℕ → K) : Fin (n + 1) → Fin m → K :=
  fun j i => if j = k then v i else f j i

/-- A new value at every node but the first. -/
def afterFirst {n m : ℕ} {K : Type} (f : Fin (n + 1) → Fin m → K) (v : ℕ → K) : Fin (n + 1) → Fin m → K :=
  fun j i => if j = 0 then f j i else v i

/-- A trajectory handed over in the order of decreasing time. -/
def backwards {n m : ℕ} {K : Type} (v : ℕ → K) : Fin (n + 1) → Fin m → K := fun j i => v ((n - j) * m + i)

open Polynomial in
/-- `y` is the value at `t` of a polynomial of degree at most `N` with the values `v 0, …, v N` at the nodes `τ 0, …, τ N`. For distinct nodes
there is exactly one such polynomial. -/
def Interpolates {K : Type} [Field K] (N : ℕ) (τ v : ℕ → K) (t y : K) : Prop :=
  ∃ Q : K[X], Q.natDegree ≤ N ∧ (∀ j ≤ N, Q.eval (τ j) = v j) ∧ Q.eval t = y

end PolyMPC.Spec
