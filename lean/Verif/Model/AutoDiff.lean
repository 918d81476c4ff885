import Mathlib.Analysis.SpecialFunctions.Trigonometric.Basic
import Mathlib.Analysis.SpecialFunctions.Trigonometric.Inverse
import Mathlib.Analysis.SpecialFunctions.Trigonometric.DerivHyp
import Mathlib.Analysis.SpecialFunctions.Complex.Arg
import Mathlib.Analysis.SpecialFunctions.Pow.Real
import Mathlib.Analysis.SpecialFunctions.Sqrt
import Mathlib.Algebra.Order.Floor.Ring

/-!
# Forward-mode automatic differentiation

Model of `src/autodiff/AutoDiffScalar.h` and `src/autodiff/rbf_kernel.hpp`.

`AutoDiffScalar<Matrix<S,n,1>>` is a class template over the scalar type `S`; the OCP and NLP code instantiates it with
`S = double` (`ad_scalar_t`) and with `S = ad_scalar_t` (`ad2_scalar_t`). `Ops S` lists the operations the template and the
user callbacks apply to their scalar type, `Dual n S` is the AD type, and `instOpsDual` is the template: every operation on
`Dual n S` is written with the operations of `S`. `Expr` is the language of callbacks that a user can write with these
operations; `Expr.eval` runs the same callback with any scalar type, as a C++ template does.

Numbers are reals. Expression templates, dynamic sizes (`make_coherent`) and the `ostream` operator are not modelled.
-/

namespace PolyMPC.AD

/-- The operations applied to a scalar type. `lit` is the conversion of a plain number, `re` the number that comparison
operators look at (AutoDiffScalar.h:162-180: comparisons use `value()`, recursively for nested types). -/
class Ops (S : Type) where
  lit : ℝ → S
  re : S → ℝ
  add : S → S → S
  sub : S → S → S
  mul : S → S → S
  div : S → S → S
  neg : S → S
  addS : S → ℝ → S
  sAdd : ℝ → S → S
  subS : S → ℝ → S
  sSub : ℝ → S → S
  mulS : S → ℝ → S
  sMul : ℝ → S → S
  divS : S → ℝ → S
  sDiv : ℝ → S → S
  abs : S → S
  abs2 : S → S
  sqrt : S → S
  cos : S → S
  sin : S → S
  exp : S → S
  log : S → S
  floor : S → S
  tan : S → S
  asin : S → S
  acos : S → S
  tanh : S → S
  sinh : S → S
  cosh : S → S
  pow : S → ℝ → S
  atan2 : S → S → S

/-- The `double` instance: the C library functions with their mathematical meaning. -/
noncomputable instance instOpsReal : Ops ℝ where
  lit c := c
  re x := x
  add a b := a + b
  sub a b := a - b
  mul a b := a * b
  div a b := a / b
  neg a := -a
  addS a c := a + c
  sAdd c a := c + a
  subS a c := a - c
  sSub c a := c - a
  mulS a c := a * c
  sMul c a := c * a
  divS a c := a / c
  sDiv c a := c / a
  abs a := |a|
  abs2 a := a * a
  sqrt a := Real.sqrt a
  cos a := Real.cos a
  sin a := Real.sin a
  exp a := Real.exp a
  log a := Real.log a
  floor a := (⌊a⌋ : ℝ)
  tan a := Real.tan a
  asin a := Real.arcsin a
  acos a := Real.arccos a
  tanh a := Real.tanh a
  sinh a := Real.sinh a
  cosh a := Real.cosh a
  pow a y := a ^ y
  atan2 a b := Complex.arg ⟨b, a⟩

/-- `AutoDiffScalar<Matrix<S,n,1>>`: `m_value` and `m_derivatives`, AutoDiffScalar.h:380-381. -/
structure Dual (n : ℕ) (S : Type) where
  val : S
  der : Fin n → S

open Ops

variable {n : ℕ} {S : Type}

/-- `MakeAutoDiffScalar(v, x.derivatives() * c)`: the shape of every unary function, AutoDiffScalar.h:545-554. -/
def Dual.chain [Ops S] (x : Dual n S) (v c : S) : Dual n S := ⟨v, fun j => mul (x.der j) c⟩

/-- The template: operators of `AutoDiffScalar` written with the operators of its scalar type. -/
noncomputable instance instOpsDual [Ops S] : Ops (Dual n S) where
  /- conversion from a plain number, AutoDiffScalar.h:98-103 (derivatives set to zero) -/
  lit c := ⟨lit c, fun _ => lit 0⟩
  /- comparisons, AutoDiffScalar.h:162-180 -/
  re x := re x.val
  /- operator+(AutoDiffScalar), 206-214 -/
  add a b := ⟨add a.val b.val, fun j => add (a.der j) (b.der j)⟩
  /- operator-(AutoDiffScalar), 242-250 -/
  sub a b := ⟨sub a.val b.val, fun j => sub (a.der j) (b.der j)⟩
  /- operator*(AutoDiffScalar), 341-351 -/
  mul a b := ⟨mul a.val b.val, fun j => add (mul (a.der j) b.val) (mul (b.der j) a.val)⟩
  /- operator/(AutoDiffScalar), 327-339 -/
  div a b := ⟨div a.val b.val, fun j =>
    mul (sub (mul (a.der j) b.val) (mul (b.der j) a.val)) (div (lit 1) (mul b.val b.val))⟩
  /- operator-(), 260-266 -/
  neg a := ⟨neg a.val, fun j => neg (a.der j)⟩
  /- operator+(Scalar), 182-185 -/
  addS a c := ⟨add a.val (lit c), a.der⟩
  /- operator+(Scalar, AutoDiffScalar), 187-190 -/
  sAdd c a := ⟨add (lit c) a.val, a.der⟩
  /- operator-(Scalar), 224-227 -/
  subS a c := ⟨sub a.val (lit c), a.der⟩
  /- operator-(Scalar, AutoDiffScalar), 229-234 -/
  sSub c a := ⟨sub (lit c) a.val, fun j => neg (a.der j)⟩
  /- operator*(Scalar), 268-272 -/
  mulS a c := ⟨mul a.val (lit c), fun j => mul (a.der j) (lit c)⟩
  /- operator*(Scalar, AutoDiffScalar), 274-278 -/
  sMul c a := ⟨mul a.val (lit c), fun j => mul (a.der j) (lit c)⟩
  /- operator/(Scalar), 297-301 -/
  divS a c := ⟨div a.val (lit c), fun j => mul (a.der j) (div (lit 1) (lit c))⟩
  /- operator/(Scalar, AutoDiffScalar), 303-307 -/
  sDiv c a := ⟨div (lit c) a.val, fun j => mul (a.der j) (div (neg (lit c)) (mul a.val a.val))⟩
  /- abs, 592-594 -/
  abs x := x.chain (abs x.val) (if re x.val < 0 then lit (-1) else lit 1)
  /- abs2, 596-598 -/
  abs2 x := x.chain (abs2 x.val) (mul (lit 2) x.val)
  /- sqrt, 600-603 -/
  sqrt x := x.chain (sqrt x.val) (div (lit (1 / 2)) (sqrt x.val))
  /- cos, 605-608 -/
  cos x := x.chain (cos x.val) (neg (sin x.val))
  /- sin, 610-613 -/
  sin x := x.chain (sin x.val) (cos x.val)
  /- exp, 615-618 -/
  exp x := x.chain (exp x.val) (exp x.val)
  /- log, 620-622 -/
  log x := x.chain (log x.val) (div (lit 1) x.val)
  /- floor, 624-626: the derivative of the argument is passed through -/
  floor x := x.chain (floor x.val) (lit 1)
  /- tan, 656-659 -/
  tan x := x.chain (tan x.val) (div (lit 1) (abs2 (cos x.val)))
  /- asin, 661-664 -/
  asin x := x.chain (asin x.val) (div (lit 1) (sqrt (sSub 1 (abs2 x.val))))
  /- acos, 666-669 -/
  acos x := x.chain (acos x.val) (div (lit (-1)) (sqrt (sSub 1 (abs2 x.val))))
  /- tanh, 671-674 -/
  tanh x := x.chain (tanh x.val) (div (lit 1) (abs2 (cosh x.val)))
  /- sinh, 676-679 -/
  sinh x := x.chain (sinh x.val) (cosh x.val)
  /- cosh, 681-684 -/
  cosh x := x.chain (cosh x.val) (sinh x.val)
  /- pow with a plain exponent, 628-636. For nested types the inner call `pow(AD, AD)` has no overload in the source, so
  this clause is only meaningful for `S = ℝ`. -/
  pow x y := x.chain (pow x.val y) (sMul y (pow x.val (y - 1)))
  /- atan2, 638-654 -/
  atan2 a b := ⟨atan2 a.val b.val, fun j =>
    div (sub (mul (a.der j) b.val) (mul a.val (b.der j))) (add (mul a.val a.val) (mul b.val b.val))⟩

/-- `min(AD, AD)`, AutoDiffScalar.h:582-585; for `double` operands `std::min` returns the same number. -/
noncomputable def amin [Ops S] (x y : S) : S := if re x < re y then x else y
/-- `max(AD, AD)`, 586-589. -/
noncomputable def amax [Ops S] (x y : S) : S := if re x ≥ re y then x else y
/-- `min(AD, T)` with a plain number, 562-566. -/
noncomputable def aminS [Ops S] (x : S) (c : ℝ) : S := if re x ≤ c then x else lit c
/-- `max(AD, T)` with a plain number, 567-571. -/
noncomputable def amaxS [Ops S] (x : S) (c : ℝ) : S := if re x ≥ c then x else lit c
/-- `min(T, AD)` with a plain number, 572-576. -/
noncomputable def sMin [Ops S] (c : ℝ) (y : S) : S := if c < re y then lit c else y
/-- `max(T, AD)` with a plain number, 577-581. -/
noncomputable def sMax [Ops S] (c : ℝ) (y : S) : S := if c > re y then lit c else y

/-- Assignment of a plain scalar, `operator=(const Scalar&)`, AutoDiffScalar.h:146-150: the derivatives are kept. -/
def Dual.assignScalar (old : Dual n S) (c : S) : Dual n S := ⟨c, old.der⟩

/-- Assignment of an AD value, 130-144. -/
def Dual.assign (_old other : Dual n S) : Dual n S := ⟨other.val, other.der⟩

/-- `operator+=(const Scalar&)`, 200-204. -/
def Dual.addAssignScalar [Ops S] (old : Dual n S) (c : S) : Dual n S := ⟨add old.val c, old.der⟩

/-- The unary functions a callback can use. -/
inductive Unary
  | abs | abs2 | sqrt | cos | sin | exp | log | floor | tan | asin | acos | tanh | sinh | cosh
  deriving DecidableEq

/-- Dispatch of a unary function. -/
def Unary.run [Ops S] : Unary → S → S
  | .abs => Ops.abs | .abs2 => Ops.abs2 | .sqrt => Ops.sqrt | .cos => Ops.cos | .sin => Ops.sin | .exp => Ops.exp
  | .log => Ops.log | .floor => Ops.floor | .tan => Ops.tan | .asin => Ops.asin | .acos => Ops.acos
  | .tanh => Ops.tanh | .sinh => Ops.sinh | .cosh => Ops.cosh

/-- Operators taking one AD operand and one plain number. -/
inductive Mixed
  | addS | sAdd | subS | sSub | mulS | sMul | divS | sDiv | minS | maxS | sMin | sMax
  deriving DecidableEq

/-- Dispatch of a mixed operator. -/
noncomputable def Mixed.run [Ops S] (o : Mixed) (c : ℝ) (a : S) : S :=
  match o with
  | .addS => Ops.addS a c | .sAdd => Ops.sAdd c a | .subS => Ops.subS a c | .sSub => Ops.sSub c a
  | .mulS => Ops.mulS a c | .sMul => Ops.sMul c a | .divS => Ops.divS a c | .sDiv => Ops.sDiv c a
  | .minS => aminS a c | .maxS => amaxS a c | .sMin => AD.sMin c a | .sMax => AD.sMax c a

/-- Operators taking two AD operands. -/
inductive Binary
  | add | sub | mul | div | atan2 | min | max
  deriving DecidableEq

/-- Dispatch of a binary operator. -/
noncomputable def Binary.run [Ops S] (o : Binary) (a b : S) : S :=
  match o with
  | .add => Ops.add a b | .sub => Ops.sub a b | .mul => Ops.mul a b | .div => Ops.div a b | .atan2 => Ops.atan2 a b
  | .min => amin a b | .max => amax a b

/-- Scalar expressions over `m` arguments that a user callback can compute. -/
inductive Expr (m : ℕ)
  | var (i : Fin m)
  | const (c : ℝ)
  | neg (a : Expr m)
  | un (f : Unary) (a : Expr m)
  | mix (o : Mixed) (c : ℝ) (a : Expr m)
  | bin (o : Binary) (a b : Expr m)
  | pow (a : Expr m) (y : ℝ)

/-- Running a callback with scalar type `S`. -/
noncomputable def Expr.eval {m : ℕ} [Ops S] (e : Expr m) (env : Fin m → S) : S :=
  match e with
  | .var i => env i
  | .const c => lit c
  | .neg a => Ops.neg (a.eval env)
  | .un f a => f.run (a.eval env)
  | .mix o c a => o.run c (a.eval env)
  | .bin o a b => o.run (a.eval env) (b.eval env)
  | .pow a y => Ops.pow (a.eval env) y

/-- Seeding of first-order variables: `derivatives() = Unit(i)`, continuous_ocp.hpp:699, 710, 721 and nlproblem.hpp:119-135. -/
def seed (x : Fin n → ℝ) (i : Fin n) : Dual n ℝ := ⟨x i, fun j => if j = i then 1 else 0⟩

/-- Seeding of second-order variables, continuous_ocp.hpp:700-705: the value is a seeded first-order variable, the outer
derivatives are unit with zero inner derivatives. -/
def seed2 (x : Fin n → ℝ) (i : Fin n) : Dual n (Dual n ℝ) :=
  ⟨⟨x i, fun j => if j = i then 1 else 0⟩, fun j => ⟨if j = i then 1 else 0, fun _ => 0⟩⟩

/-! ### RBF kernel -/

/-- `squaredNorm` of `x - y`. -/
def sqDist (x y : Fin n → ℝ) : ℝ := ∑ i, (x i - y i) * (x i - y i)

/-- `rbf_kernel::eval<double>`, rbf_kernel.hpp:41-45. -/
noncomputable def rbf (x y : Fin n → ℝ) : ℝ := Real.exp (-sqDist x y)

/-- `rbf_kernel::eval<adscalar_t>`, rbf_kernel.hpp:57-66: the incoming derivatives are not used. -/
noncomputable def rbfAD (x : Fin n → Dual n ℝ) (y : Fin n → ℝ) : Dual n ℝ :=
  let xt : Fin n → ℝ := fun i => (x i).val
  let v := Real.exp (-sqDist xt y)
  ⟨v, fun i => -2 * v * (xt i - y i)⟩

/-- `rbf_kernel::eval<outer_adscalar_t>`, rbf_kernel.hpp:70-90. `junk` stands for the never assigned members
`result.derivatives()(i).value()`. -/
noncomputable def rbfAD2 (junk : Fin n → ℝ) (x : Fin n → Dual n (Dual n ℝ)) (y : Fin n → ℝ) : Dual n (Dual n ℝ) :=
  let xt : Fin n → ℝ := fun i => (x i).val.val
  let v := Real.exp (-sqDist xt y)
  let hes : Fin n → Fin n → ℝ := fun i j => v * (4 * (xt i - y i) * (xt j - y j) - if i = j then 1 else 0)
  ⟨⟨v, fun i => -2 * v * (xt i - y i)⟩, fun i => ⟨junk i, fun r => hes r i⟩⟩

end PolyMPC.AD
