import Verif.Spec.QP
import Mathlib.Data.Real.Basic

/-!
# Numbers and quadratic programs that agree up to rounding
-/

namespace PolyMPC.Spec

/-- `a` is `b` times a factor between `(1 - ε)ᵏ` and `(1 - ε)⁻ᵏ`: the effect of `k` roundings of relative size `ε`. -/
def Close (ε : ℝ) (k : ℕ) (a b : ℝ) : Prop := ∃ t, (1 - ε) ^ k ≤ t ∧ t * (1 - ε) ^ k ≤ 1 ∧ a = b * t

/-- The data of two quadratic programs agree entry by entry: the Hessians up to `kH` roundings, the constraint matrices up to `kA`, the
linear terms up to `kh`, the constraint bounds up to `kb` and the variable bounds up to `kx`. -/
structure CloseQP {N M : ℕ} (ε : ℝ) (kH kA kh kb kx : ℕ) (a b : QP ℝ N M) : Prop where
  H : ∀ i j, Close ε kH (a.H i j) (b.H i j)
  A : ∀ i j, Close ε kA (a.A i j) (b.A i j)
  h : ∀ i, Close ε kh (a.h i) (b.h i)
  Aub : ∀ i, Close ε kb (a.Aub i) (b.Aub i)
  Alb : ∀ i, Close ε kb (a.Alb i) (b.Alb i)
  xlb : ∀ i, Close ε kx (a.xlb i) (b.xlb i)
  xub : ∀ i, Close ε kx (a.xub i) (b.xub i)

end PolyMPC.Spec
