import Verif.Model.AutoDiff

/-!
# Nonlinear programs with automatic differentiation (src/solvers/nlproblem.hpp)

`ProblemBase` with dense matrices: the user supplies `cost_impl`, `equality_constraints_impl` and `inequality_constraints_impl` as
templates over the scalar type, the class evaluates them with plain numbers, AD scalars and nested AD scalars that are members of
the object and keep their contents between calls. A callback is a list of statements per output, so that the out-parameter it finds
matters; the parameter `p` of the callbacks is constant and absorbed in the expressions. Out-parameters of the callbacks are scalars:
a callback that reads another output is not covered. Numbers are reals.

The overload of `lagrangian_gradient` without constraint arguments (nlproblem.hpp:553-570) calls the misspelled
`equalities_linerised`; it cannot be instantiated and is left out.
-/

namespace PolyMPC.Nlp
open PolyMPC.AD

/-- Assignment of a plain number to an existing variable of a scalar type. -/
class Out (S : Type) where
  setNum : S → ℝ → S

/-- `double = double`. -/
instance : Out ℝ where
  setNum _ c := c

/-- `AutoDiffScalar = number`, AutoDiffScalar.h:146-150: converts the number to the scalar type of the value and keeps the derivatives. -/
noncomputable instance {n : ℕ} {S : Type} [Ops S] : Out (Dual n S) where
  setNum old c := old.assignScalar (Ops.lit c)

/-- Statements of a callback with the out-parameter `out`: `out = e`, `out = c` with a plain number, `out += e`. -/
inductive Stmt (n : ℕ)
  | set (e : Expr n)
  | setNum (c : ℝ)
  | add (e : Expr n)

/-- Running a statement with scalar type `S`; `+=` is AutoDiffScalar.h:216-222. -/
noncomputable def Stmt.run {n : ℕ} {S : Type} [Ops S] [Out S] (env : Fin n → S) (out : S) : Stmt n → S
  | .set e => e.eval env
  | .setNum c => Out.setNum out c
  | .add e => Ops.add out (e.eval env)

/-- A callback. -/
abbrev Prog (n : ℕ) := List (Stmt n)

/-- Running a callback on an out-parameter with some contents. -/
noncomputable def Prog.run {n : ℕ} {S : Type} [Ops S] [Out S] (P : Prog n) (env : Fin n → S) (out : S) : S := P.foldl (Stmt.run env) out

/-- The user's problem: `n` variables, `e` equalities, `q` inequalities. -/
structure Problem (n e q : ℕ) where
  cost : Prog n
  eq : Fin e → Prog n
  ineq : Fin q → Prog n

/-- AD members of the object, nlproblem.hpp:106-112. -/
structure Obj (n e q : ℕ) where
  adVar : Fin n → Dual n ℝ
  adEq : Fin e → Dual n ℝ
  adIneq : Fin q → Dual n ℝ
  adCost : Dual n ℝ
  ad2Var : Fin n → Dual n (Dual n ℝ)
  ad2Cost : Dual n (Dual n ℝ)

variable {n e q : ℕ}

/-- The constructor, `seed_derivatives`, nlproblem.hpp:52-55, 119-135. The members are uninitialised (`junk`) before; only derivatives are
set. -/
def make (junk : Obj n e q) : Obj n e q :=
  { junk with
    adVar := fun i => ⟨(junk.adVar i).val, fun j => if j = i then 1 else 0⟩
    ad2Var := fun i => ⟨⟨(junk.ad2Var i).val.val, fun j => if j = i then 1 else 0⟩, fun j => ⟨if j = i then 1 else 0, fun _ => 0⟩⟩ }

/-- `m_ad_var = var`: assignment of plain numbers, entry by entry. -/
def setVar (o : Obj n e q) (x : Fin n → ℝ) : Obj n e q := { o with adVar := fun i => (o.adVar i).assignScalar (x i) }

/-- `m_ad2_var(i).value().value() = var(i)`, nlproblem.hpp:527-528, 639-640. -/
def setVar2 (o : Obj n e q) (x : Fin n → ℝ) : Obj n e q :=
  { o with ad2Var := fun i => ⟨(o.ad2Var i).val.assignScalar (x i), (o.ad2Var i).der⟩ }

/-- `cost`, nlproblem.hpp:168-178: the callback on the caller's variable. -/
noncomputable def cost (P : Problem n e q) (x : Fin n → ℝ) (out : ℝ) : ℝ := P.cost.run x out

/-- `equalities`, nlproblem.hpp:680-685. -/
noncomputable def equalities (P : Problem n e q) (x : Fin n → ℝ) (out : Fin e → ℝ) : Fin e → ℝ := fun i => (P.eq i).run x (out i)

/-- `inequalities`, nlproblem.hpp:688-693. -/
noncomputable def inequalities (P : Problem n e q) (x : Fin n → ℝ) (out : Fin q → ℝ) : Fin q → ℝ := fun i => (P.ineq i).run x (out i)

/-- `cost_gradient_impl`, nlproblem.hpp:499-510. -/
noncomputable def costGradient (P : Problem n e q) (o : Obj n e q) (x : Fin n → ℝ) : ℝ × (Fin n → ℝ) × Obj n e q :=
  let o := { o with adCost := Ops.lit 0 }
  let o := setVar o x
  let o := { o with adCost := P.cost.run o.adVar o.adCost }
  (0 + o.adCost.val, fun i => 0 + o.adCost.der i, o)

/-- `cost_gradient_hessian_impl`, nlproblem.hpp:514-535. Of the nested accumulator only the innermost value is reset (line 524). -/
noncomputable def costGradientHessian (P : Problem n e q) (o : Obj n e q) (x : Fin n → ℝ) : ℝ × (Fin n → ℝ) × (Fin n → Fin n → ℝ) × Obj n e q :=
  let o := { o with ad2Cost := ⟨⟨0, o.ad2Cost.val.der⟩, o.ad2Cost.der⟩ }
  let o := setVar2 o x
  let o := { o with ad2Cost := P.cost.run o.ad2Var o.ad2Cost }
  (o.ad2Cost.val.val, o.ad2Cost.val.der, fun r i => (o.ad2Cost.der i).der r, o)

/-- `equalities_linearised_impl`, nlproblem.hpp:294-325 (with no equalities nothing is written). -/
noncomputable def equalitiesLin (P : Problem n e q) (o : Obj n e q) (x : Fin n → ℝ) : (Fin e → ℝ) × (Fin e → Fin n → ℝ) × Obj n e q :=
  let o := setVar o x
  let o := { o with adEq := fun i => (P.eq i).run o.adVar (o.adEq i) }
  (fun i => (o.adEq i).val, fun i => (o.adEq i).der, o)

/-- `inequalities_linearised_impl`, nlproblem.hpp:334-367. -/
noncomputable def inequalitiesLin (P : Problem n e q) (o : Obj n e q) (x : Fin n → ℝ) : (Fin q → ℝ) × (Fin q → Fin n → ℝ) × Obj n e q :=
  let o := setVar o x
  let o := { o with adIneq := fun i => (P.ineq i).run o.adVar (o.adIneq i) }
  (fun i => (o.adIneq i).val, fun i => (o.adIneq i).der, o)

/-- Writing `head<e>`/`topRows<e>` and `tail<q>`/`bottomRows<q>` of an array with `e + q` rows. -/
def stack {R : Type} (e q : ℕ) (top : Fin e → R) (bottom : Fin q → R) (old : ℕ → R) : ℕ → R := fun i =>
  if h : i < e then top ⟨i, h⟩ else if h : i - e < q then bottom ⟨i - e, h⟩ else old i

/-- `constraints_linearised_impl`, nlproblem.hpp:379-398. -/
noncomputable def constraintsLin (P : Problem n e q) (o : Obj n e q) (x : Fin n → ℝ) (c0 : ℕ → ℝ) (jac0 : ℕ → Fin n → ℝ) :
    (ℕ → ℝ) × (ℕ → Fin n → ℝ) × Obj n e q :=
  let (c, jc, o) := equalitiesLin P o x
  let (g, jg, o) := inequalitiesLin P o x
  (stack e q c g c0, stack e q jc jg jac0, o)

/-- `constraints`, nlproblem.hpp:697-703. -/
noncomputable def constraints (P : Problem n e q) (x : Fin n → ℝ) (c0 : ℕ → ℝ) : ℕ → ℝ :=
  stack e q (equalities P x fun i => c0 i) (inequalities P x fun i => c0 (e + i)) c0

/-- `jac_g.transpose() * lam.head<e + q>()`, then `+= cost_gradient`, then `+= lam.tail<n>()`: nlproblem.hpp:595-599, 630-632. -/
def lagGradOf (e q : ℕ) (jac : ℕ → Fin n → ℝ) (lam : ℕ → ℝ) (grad : Fin n → ℝ) : Fin n → ℝ := fun c =>
  (∑ r ∈ Finset.range (e + q), jac r c * lam r) + grad c + lam (e + q + c)

/-- `lagrangian_impl`, nlproblem.hpp:538-550, on the caller's variable; `c0`, `g0` are the uninitialised temporaries. -/
noncomputable def lagrangian (P : Problem n e q) (x : Fin n → ℝ) (lam : ℕ → ℝ) (out : ℝ) (c0 : Fin e → ℝ) (g0 : Fin q → ℝ) : ℝ :=
  cost P x out + ((∑ i : Fin e, equalities P x c0 i * lam i) + (∑ i : Fin q, inequalities P x g0 i * lam (e + i)) + ∑ i : Fin n, x i * lam (e + q + i))

/-- `lagrangian_gradient_impl` with constraint arguments, nlproblem.hpp:573-600: "Lagrangian", gradient of the Lagrangian, gradient of the
cost, constraints, Jacobian, object. -/
noncomputable def lagrangianGradient (P : Problem n e q) (o : Obj n e q) (x : Fin n → ℝ) (lam : ℕ → ℝ) (c0 : ℕ → ℝ) (jac0 : ℕ → Fin n → ℝ) :
    ℝ × (Fin n → ℝ) × (Fin n → ℝ) × (ℕ → ℝ) × (ℕ → Fin n → ℝ) × Obj n e q :=
  let (v, grad, o) := costGradient P o x
  let (c, jac, o) := constraintsLin P o x c0 jac0
  (v, lagGradOf e q jac lam grad, grad, c, jac, o)

/-- `lagrangian_gradient_hessian_impl`, nlproblem.hpp:603-677. `eq0`, `ineq0` are the uninitialised local AD vectors. The temporary `hes`
receives the second derivatives column by column and is transposed before it is added. -/
noncomputable def lagrangianGradientHessian (P : Problem n e q) (o : Obj n e q) (x : Fin n → ℝ) (lam : ℕ → ℝ) (c0 : ℕ → ℝ) (jac0 : ℕ → Fin n → ℝ)
    (eq0 : Fin e → Dual n (Dual n ℝ)) (ineq0 : Fin q → Dual n (Dual n ℝ)) (costScale : ℝ) :
    ℝ × (Fin n → ℝ) × (Fin n → Fin n → ℝ) × (Fin n → ℝ) × (ℕ → ℝ) × (ℕ → Fin n → ℝ) × Obj n e q :=
  let (v, grad, hess, o) := costGradientHessian P o x
  let (c, jac, o) := constraintsLin P o x c0 jac0
  let hess := if costScale = 1 then hess else fun r i => costScale * hess r i
  let o := setVar2 o x
  let hess := fun r i => hess r i + ∑ k : Fin e, lam k * (((P.eq k).run o.ad2Var (eq0 k)).der r).der i
  let hess := fun r i => hess r i + ∑ k : Fin q, lam (k + e) * (((P.ineq k).run o.ad2Var (ineq0 k)).der r).der i
  (v, lagGradOf e q jac lam grad, hess, grad, c, jac, o)

end PolyMPC.Nlp
