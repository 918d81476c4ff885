import Verif.Model.AutoDiff
import Verif.Spec.Calculus

/-! # Where a callback expression is defined and differentiable -/

namespace PolyMPC.AD

variable {m : ℕ}

/-- Arguments at which a unary function is differentiable with the derivative the code uses. `floor` never qualifies. -/
def Unary.Ok : Unary → ℝ → Prop
  | .abs, x => x ≠ 0
  | .sqrt, x => 0 < x
  | .log, x => 0 < x
  | .floor, _ => False
  | .tan, x => Real.cos x ≠ 0
  | .asin, x => -1 < x ∧ x < 1
  | .acos, x => -1 < x ∧ x < 1
  | _, _ => True

/-- Arguments at which an operator with a plain number is defined and differentiable. -/
def Mixed.Ok : Mixed → ℝ → ℝ → Prop
  | .divS, c, _ => c ≠ 0
  | .sDiv, _, x => x ≠ 0
  | .minS, c, x => x ≠ c
  | .maxS, c, x => x ≠ c
  | .sMin, c, x => x ≠ c
  | .sMax, c, x => x ≠ c
  | _, _, _ => True

/-- Arguments at which a binary operator is defined and differentiable. -/
def Binary.Ok : Binary → ℝ → ℝ → Prop
  | .div, _, b => b ≠ 0
  | .atan2, a, b => 0 < b ∨ a ≠ 0
  | .min, a, b => a ≠ b
  | .max, a, b => a ≠ b
  | _, _, _ => True

/-- Arguments at which `pow(x, y)` is defined and differentiable in `x`. -/
def PowOk (x y : ℝ) : Prop := 0 < x ∨ ∃ k : ℤ, y = k ∧ (x ≠ 0 ∨ 1 ≤ k)

/-- The expression is defined and all its sub-operations are differentiable at the arguments `x`. -/
def Expr.Ok (e : Expr m) (x : Fin m → ℝ) : Prop :=
  match e with
  | .var _ => True
  | .const _ => True
  | .neg a => a.Ok x
  | .un f a => a.Ok x ∧ f.Ok (a.eval x)
  | .mix o c a => a.Ok x ∧ o.Ok c (a.eval x)
  | .bin o a b => a.Ok x ∧ b.Ok x ∧ o.Ok (a.eval x) (b.eval x)
  | .pow a y => a.Ok x ∧ PowOk (a.eval x) y

/-- No `pow` node: the nested AD type has no usable overload of it. -/
def Expr.NoPow : Expr m → Prop
  | .var _ => True
  | .const _ => True
  | .neg a => a.NoPow
  | .un _ a => a.NoPow
  | .mix _ _ a => a.NoPow
  | .bin _ a b => a.NoPow ∧ b.NoPow
  | .pow _ _ => False

end PolyMPC.AD
