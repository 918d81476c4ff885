import Verif.Model.SolverOpts
import Verif.Model.CasadiMath

/-!
# The options of `ODESolver`

Model of `Parameters` and of the options passed to CVODES in `src/integration/integrator.h` and `src/integration/integrator.cpp`. `casadi::integrator` copies the dictionary that it
is given: the integrator is an unknown partial function of that dictionary and of its arguments. Reading a `GenericType` as a number throws for strings, and as an integer also for
numbers that are none.
-/

namespace PolyMPC.SolverOpts
open Ocp

variable {K V U P : Type} [Field K] [AddCommGroup V] [Module K V]

/-- `int x = generic`. -/
def Val.toInt : Val → Option ℤ
  | .int n => some n
  | .num q => if q.den = 1 then some q.num else none
  | .str _ => none

/-- `double x = generic`. -/
def Val.toNum : Val → Option ℚ
  | .int n => some n
  | .num q => some q
  | .str _ => none

/-- The defaults, integrator.cpp:9-17; `CVODES` is 1, integrator.h:7. -/
def odeDefaults : Dict := putAll empty [("method", .int 1), ("tf", .num 1), ("max_iter", .int 300), ("tol", .num (1 / 100000000))]

/-- `updateParams`, integrator.cpp:82-91: names that are not present are ignored. -/
def odeUpdate (D : Dict) (l : List (String × Val)) : Dict := l.foldl (fun D e => if (D e.1).isSome then put D e.1 e.2 else D) D

/-- The options of the integrator, integrator.cpp:50: the members `Tolerance` and `MaxIter`, set in lines 9-10. -/
def cvodesOpts : Dict := putAll empty [("tf", .num 1), ("abstol", .num (1 / 100000000)), ("max_num_steps", .int 300)]

/-- The object: right-hand side, `Parameters`, and the options of the integrator, if one was created. -/
structure Ode (V U P : Type) where
  rhs : V → U → P → V
  params : Dict
  built : Option Dict

/-- The constructor, integrator.cpp:6-66; `none`: an exception of the conversions in lines 29 and 53. -/
def Ode.make (rhs : V → U → P → V) (user : List (String × Val)) : Option (Ode V U P) :=
  let D := odeUpdate odeDefaults user
  match (D "tf").bind Val.toNum, (D "method").bind Val.toInt with
  | some _, some m => some ⟨rhs, D, if m = 1 then some cvodesOpts else none⟩
  | _, _ => none

/-- `updateParams`, integrator.cpp:82-91. -/
def Ode.update (S : Ode V U P) (l : List (String × Val)) : Ode V U P := { S with params := odeUpdate S.params l }

/-- `solve(x0, u, p, dt)`, integrator.cpp:93-130; `none`: an exception of the conversions in lines 116-117. For the empty matrix see `Util.ODESolver.solve`. -/
def Ode.solve (cvodes : Dict → V → U → K → P → Option V) (S : Ode V U P) (x0 : V) (u : U) (p : P) (dt : K) : Option (Util.OdeResult V) :=
  match (S.params "method").bind Val.toInt, (S.params "tf").bind Val.toNum with
  | some m, some _ =>
    if m = 0 then some (.state (Util.rk4Solve S.rhs x0 u p dt))
    else if m = 1 then
      match S.built with
      | none => some .empty
      | some D =>
        match cvodes D x0 u dt p with
        | some x => some (.state x)
        | none => some .empty
    else some .empty
  | _, _ => none

/-- `solve(x0, u, dt)`, integrator.cpp:132-136. -/
def Ode.solvePlain [Zero P] (cvodes : Dict → V → U → K → P → Option V) (S : Ode V U P) (x0 : V) (u : U) (dt : K) : Option (Util.OdeResult V) := S.solve cvodes x0 u 0 dt

end PolyMPC.SolverOpts
