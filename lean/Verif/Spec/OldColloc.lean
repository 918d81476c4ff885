import Verif.Spec.Ocp
import Verif.Model.OldColloc

/-! # Vocabulary of the properties of the older collocation classes -/

namespace PolyMPC.Spec
open Ocp OldColloc

/-- The variables `z` with the parameters replaced by those of `x`. -/
def withPar (d : Dims) (x z : Fin d.VAR → ℝ) : Fin d.VAR → ℝ := fun c => if c.val < d.VARX + d.VARU then z c else x c

/-- The dynamics functor writes all components, whatever their old contents, and computes `F`. -/
def OldDyn {d : Dims} (f : Dyn d ℝ) (F : ℕ → (Fin (MU d) → ℝ) → (ℕ → ℝ) → ℝ) : Prop :=
  ∀ z p old, ∀ i < d.NX, f.plain z p old i = F i z p

/-- At states and controls `z` and parameters `p` the AD instantiation of the dynamics carries the derivatives of `F` with respect to states
and controls. -/
def OldDynAD {d : Dims} (f : Dyn d ℝ) (F : ℕ → (Fin (MU d) → ℝ) → (ℕ → ℝ) → ℝ) (z : Fin (MU d) → ℝ) (p : ℕ → ℝ) : Prop :=
  ∀ i < d.NX, ∃ a, (∀ old, f.ad z p old i = a) ∧ AdExact a (fun z => F i z p) z

/-- The states of a stacked vector. -/
def statesOf (d : Dims) (z : Fin (MU d) → ℝ) : Fin d.NX → ℝ := fun i => z ⟨i, lt_of_lt_of_le i.2 (Nat.le_add_right _ _)⟩

/-- Running cost `L` and terminal cost `m` are what the functors compute; both functors write their result. -/
structure OldCost {d : Dims} (cb : CostCbs d ℝ) (L : (Fin (MU d) → ℝ) → (ℕ → ℝ) → ℝ) (m : (Fin d.NX → ℝ) → ℝ) : Prop where
  lag : ∀ z p old, cb.lag z p old = L z p
  mayer : ∀ y old, cb.mayer y old = m y

/-- At the point `x` the first-order instantiations carry the derivatives with respect to states and controls. -/
structure OldCostAD {d : Dims} (cb : CostCbs d ℝ) (L : (Fin (MU d) → ℝ) → (ℕ → ℝ) → ℝ) (m : (Fin d.NX → ℝ) → ℝ) (x : Fin d.VAR → ℝ) : Prop where
  lag : ∀ k < d.NN, ∃ a, (∀ old, cb.lagAD (nodeXU d (ext x) k) (par d (ext x)) old = a) ∧
    AdExact a (fun z => L z (par d (ext x))) (nodeXU d (ext x) k)
  mayer : ∀ old, AdExact (cb.mayerAD (headX d (ext x)) old) (fun z => m (statesOf d z)) (nodeXU d (ext x) 0)

/-- The same for the second-order instantiations. -/
structure OldCostAD2 {d : Dims} (cb : CostCbs d ℝ) (L : (Fin (MU d) → ℝ) → (ℕ → ℝ) → ℝ) (m : (Fin d.NX → ℝ) → ℝ) (x : Fin d.VAR → ℝ) : Prop where
  lag : ∀ k < d.NN, ∃ a, (∀ old, cb.lagAD2 (nodeXU d (ext x) k) (par d (ext x)) old = a) ∧
    AdExact2 a (fun z => L z (par d (ext x))) (nodeXU d (ext x) k)
  mayer : ∀ old, AdExact2 (cb.mayerAD2 (headX d (ext x)) old) (fun z => m (statesOf d z)) (nodeXU d (ext x) 0)

end PolyMPC.Spec
