import Verif.Model.OldSparse

/-! # Vocabulary of the properties of the older sparse collocation class -/

namespace PolyMPC.Spec
open AD Ocp OldColloc Sparse

variable {K : Type} [Field K] [DecidableEq K]

/-- The arguments of a call of `linearized`: variables, time limits, contents of the uninitialised local vector. -/
structure LinCall (K : Type) where
  var : ℕ → K
  t0 : K
  tf : K
  v0 : ℕ → K

/-- The AD instantiation of the functor writes all components. -/
def WritesAll {d : Dims} (f : Dyn d K) : Prop := ∀ z p old old', ∀ i < d.NX, f.ad z p old i = f.ad z p old' i

/-- Calls of `linearized` one after the other with the same object and the same matrix: the matrix and the vector after each call. -/
def linSession (d : Dims) : SpOde d K → Csc K → List (LinCall K) → Option (List (Csc K × (ℕ → K)))
  | _, _, [] => some []
  | o, J, a :: as => (o.linearized d a.var a.t0 a.tf a.v0 J).bind fun r => (linSession d r.2.2 r.1 as).map fun l => (r.1, r.2.1) :: l

/-- Matrix and vector are those that an object of the dense class computes for the same call. -/
def AgreesDense (d : Dims) (D : Ode d K) (a : LinCall K) (r : Csc K × (ℕ → K)) : Prop :=
  ∀ v0, ∃ M b D', D.linearized d a.var a.t0 a.tf v0 = some (M, b, D') ∧
    ∀ q < d.VARX, r.2 q = b q ∧ ∀ c < d.VAR, r.1.coeff q c = M q c

end PolyMPC.Spec
