import Verif.Spec.QP
import Mathlib.Data.Matrix.ColumnRowPartitioned
import Mathlib.Analysis.Calculus.FDeriv.Basic
import Mathlib.Topology.Algebra.Module.FiniteDimension

/-!
# Regular solutions of nonlinear programs

Vocabulary for local convergence: rows are the constraints followed by the variables, each with a lower and an upper bound.
-/

namespace PolyMPC.Spec
open Matrix

variable {n me mi : ℕ}

/-- Constraint values followed by the variables. -/
def nlpRows (c : Fin (me + mi) → ℝ) (x : Fin n → ℝ) : Fin (me + mi) ⊕ Fin n → ℝ := Sum.elim c x

/-- Bounds of the rows: `0` for equalities. -/
def nlpBound (bg : Fin mi → ℝ) (bx : Fin n → ℝ) : Fin (me + mi) ⊕ Fin n → ℝ := Sum.elim (Fin.addCases (fun _ => 0) bg) bx

/-- Gradients of the rows. -/
def nlpGrads (J : Matrix (Fin (me + mi)) (Fin n) ℝ) : Matrix (Fin (me + mi) ⊕ Fin n) (Fin n) ℝ := fromRows J 1

/-- Linear independence constraint qualification: the gradients of the equalities and of the inequalities and bounds that hold with equality are linearly independent. -/
def LICQ (c : Fin (me + mi) → ℝ) (J : Matrix (Fin (me + mi)) (Fin n) ℝ) (x : Fin n → ℝ) (lbg ubg : Fin mi → ℝ) (lbx ubx : Fin n → ℝ) : Prop :=
  LinearIndependent ℝ fun i : {i // nlpRows c x i = nlpBound lbg lbx i ∨ nlpRows c x i = nlpBound ubg ubx i} => nlpGrads J i

/-- The linear map `v ↦ A v`. -/
noncomputable def linMap {m : ℕ} (A : Matrix (Fin m) (Fin n) ℝ) : (Fin n → ℝ) →L[ℝ] (Fin m → ℝ) := A.mulVecLin.toContinuousLinearMap

/-- Near `(xs, ys)`, `J` is the Jacobian of the constraints `c` and `W x ys` the Jacobian of the gradient `g + Jᵀ ys` of the Lagrangian, the matrices `W` are symmetric, and `J` and `W`
are Lipschitz continuous at `(xs, ys)`. -/
def SmoothNear {m : ℕ} (c : (Fin n → ℝ) → Fin m → ℝ) (J : (Fin n → ℝ) → Matrix (Fin m) (Fin n) ℝ) (g : (Fin n → ℝ) → Fin n → ℝ)
    (W : (Fin n → ℝ) → (Fin m ⊕ Fin n → ℝ) → Matrix (Fin n) (Fin n) ℝ) (xs : Fin n → ℝ) (ys : Fin m ⊕ Fin n → ℝ) : Prop :=
  ∃ r > 0, ∃ L, ∀ x, ‖x - xs‖ ≤ r →
    HasFDerivAt c (linMap (J x)) x ∧ HasFDerivAt (fun x => g x + (J x)ᵀ *ᵥ QP.yA ys) (linMap (W x ys)) x ∧ (∀ i j, |J x i j - J xs i j| ≤ L * ‖x - xs‖) ∧
    ∀ y, ‖y - ys‖ ≤ r → (W x y)ᵀ = W x y ∧ ∀ i j, |W x y i j - W xs ys i j| ≤ L * max ‖x - xs‖ ‖y - ys‖

end PolyMPC.Spec
