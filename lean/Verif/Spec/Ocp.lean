import Verif.Spec.Calculus
import Verif.Model.Ocp

/-! # Vocabulary of the transcription properties -/

namespace PolyMPC.Spec

/-- A vector as a function on natural numbers. -/
def ext {n : ℕ} (v : Fin n → ℝ) (i : ℕ) : ℝ := if h : i < n then v ⟨i, h⟩ else 0

/-- An AD result carries the value and the gradient of `f` at `z`. -/
def AdExact {m : ℕ} (a : AD.Dual m ℝ) (f : (Fin m → ℝ) → ℝ) (z : Fin m → ℝ) : Prop :=
  a.val = f z ∧ IsGradient f a.der z

/-- A second-order AD result carries value, gradient and symmetric second derivatives of `f` at `z`. -/
def AdExact2 {m : ℕ} (a : AD.Dual m (AD.Dual m ℝ)) (f : (Fin m → ℝ) → ℝ) (z : Fin m → ℝ) : Prop :=
  a.val.val = f z ∧ IsGradient f a.val.der z ∧ IsHessian f (fun r i => (a.der i).der r) z

open Ocp in
/-- At time `t` the dynamics callback writes all its components, whatever their old contents: `f i` is the function computed by the
plain instantiation, and at the stacked point `z` the first-order AD instantiation carries its derivatives. -/
structure DynExact {d : Dims} (cb : Cbs d ℝ) (t : ℝ) (f : ℕ → (Fin d.M → ℝ) → ℝ) (z : Fin d.M → ℝ) : Prop where
  plain : ∀ z old, ∀ i < d.NX, cb.dyn z t old i = f i z
  ad : ∀ i < d.NX, ∃ a, (∀ old, cb.dynAD z t old i = a) ∧ AdExact a (f i) z

open Ocp in
/-- The same for the path constraints. -/
structure IneqExact {d : Dims} (cb : Cbs d ℝ) (t : ℝ) (f : ℕ → (Fin d.M → ℝ) → ℝ) (z : Fin d.M → ℝ) : Prop where
  plain : ∀ z old, ∀ i < d.NG, cb.ineq z t old i = f i z
  ad : ∀ i < d.NG, ∃ a, (∀ old, cb.ineqAD z t old i = a) ∧ AdExact a (f i) z

open Ocp in
/-- The same for the running cost. -/
structure LagExact {d : Dims} (cb : Cbs d ℝ) (t : ℝ) (f : (Fin d.M → ℝ) → ℝ) (z : Fin d.M → ℝ) : Prop where
  plain : ∀ z old, cb.lag z t old = f z
  ad : ∃ a, (∀ old, cb.lagAD z t old = a) ∧ AdExact a f z

open Ocp in
/-- The same for the terminal cost; it is always handed a zero, so it need not write. -/
structure MayerExact {d : Dims} (cb : Cbs d ℝ) (t : ℝ) (f : (Fin d.M → ℝ) → ℝ) (z : Fin d.M → ℝ) : Prop where
  plain : ∀ z, cb.mayer z t 0 = f z
  ad : AdExact (cb.mayerAD z t ⟨0, fun _ => 0⟩) f z

open Ocp in
/-- Second-order instantiations. -/
structure DynExact2 {d : Dims} (cb : Cbs d ℝ) (t : ℝ) (f : ℕ → (Fin d.M → ℝ) → ℝ) (z : Fin d.M → ℝ) : Prop where
  ad2 : ∀ i < d.NX, ∃ a, (∀ old, cb.dynAD2 z t old i = a) ∧ AdExact2 a (f i) z

open Ocp in
structure IneqExact2 {d : Dims} (cb : Cbs d ℝ) (t : ℝ) (f : ℕ → (Fin d.M → ℝ) → ℝ) (z : Fin d.M → ℝ) : Prop where
  ad2 : ∀ i < d.NG, ∃ a, (∀ old, cb.ineqAD2 z t old i = a) ∧ AdExact2 a (f i) z

open Ocp in
structure LagExact2 {d : Dims} (cb : Cbs d ℝ) (t : ℝ) (f : (Fin d.M → ℝ) → ℝ) (z : Fin d.M → ℝ) : Prop where
  ad2 : ∃ a, (∀ old, cb.lagAD2 z t old = a) ∧ AdExact2 a f z

open Ocp in
structure MayerExact2 {d : Dims} (cb : Cbs d ℝ) (t : ℝ) (f : (Fin d.M → ℝ) → ℝ) (z : Fin d.M → ℝ) : Prop where
  ad2 : AdExact2 (cb.mayerAD2 z t ⟨⟨0, fun _ => 0⟩, fun _ => ⟨0, fun _ => 0⟩⟩) f z

end PolyMPC.Spec
