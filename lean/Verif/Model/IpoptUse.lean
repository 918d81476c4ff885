import Verif.Model.Ipopt

/-!
# Using the Ipopt interface (src/solvers/ipopt_interface.hpp:385-499)

`IpoptInterface` around the adapter of `Verif.Model.Ipopt`: `solve`, `solve` with a guess, the getters. Ipopt itself is an
arbitrary function of its options and of the adapter it is given: it returns a status, may or may not call
`finalize_solution`, and may or may not have statistics (`Statistics()` is a null pointer when a call ended before there
was a point). The parameters `m_p` and what the other callbacks store in the adapter are not part of the state: neither is
read by the functions modelled here. Printing is left out.
-/

namespace PolyMPC.Ipopt

/-- What `m_app->Statistics()` holds after a call, as read in ipopt_interface.hpp:483-486. -/
structure Stats (R : Type) where
  iter : ℤ
  dualInf : R
  constrViol : R
  boundsViol : R
  complementarity : R
  kktError : R
  objective : R

/-- Arguments of `finalize_solution`, ipopt_interface.hpp:362-364. -/
structure Final (R : Type) where
  x : List R
  zL : List R
  zU : List R
  g : List R
  lambda : List R
  objValue : R

/-- What a call of `OptimizeTNLP` leads to, ipopt_interface.hpp:471: the status, the call of `finalize_solution` if any,
and the statistics if any. -/
structure Outcome (St R : Type) where
  status : St
  final : Option (Final R)
  stats : Option (Stats R)

/-- Data members of `IpoptInterface`, ipopt_interface.hpp:392-395 and 427; `status` and `iter` are `m_info`. -/
structure Interface (St R : Type) where
  adapter : Adapter R
  status : St
  iter : ℤ
  primalNorm : R
  dualNorm : R
  cost : R
  maxViolation : R

/-- A new object, ipopt_interface.hpp:398-416, 427. `m_info` is not initialised: `status` and `iter` are arbitrary. -/
def Interface.make {St R : Type} [Zero R] [Bot R] [Top R] (n e q : ℕ) (status : St) (iter : ℤ) : Interface St R where
  adapter := Adapter.make n e q
  status := status
  iter := iter
  primalNorm := 0
  dualNorm := 0
  cost := 0
  maxViolation := 0

/-- The adapter after `OptimizeTNLP`, ipopt_interface.hpp:471 with 362-378. -/
def afterOptimize {St R : Type} [Zero R] (a : Adapter R) (o : Outcome St R) : Option (Adapter R) :=
  match o.final with
  | none => some a
  | some f => finalizeSolution a f.x f.zL f.zU f.g f.lambda f.objValue

/-- `solve()`, ipopt_interface.hpp:467-487. Dereferencing the null pointer is the outcome `none`. -/
def solve {St R : Type} [Zero R] (ipopt : Adapter R → Outcome St R) (s : Interface St R) : Option (Interface St R) :=
  let o := ipopt s.adapter
  (afterOptimize s.adapter o).bind fun a =>
    match o.stats with
    | none => none
    | some t => some { s with
        adapter := a, status := o.status, iter := t.iter, dualNorm := t.dualInf, maxViolation := t.constrViol,
        cost := t.objective }

/-- `solve(x_guess, lam_guess)`, ipopt_interface.hpp:491-496. -/
def solveFrom {St R : Type} [Zero R] (ipopt : Adapter R → Outcome St R) (x lam : ℕ → R) (s : Interface St R) :
    Option (Interface St R) :=
  solve ipopt { s with adapter := guess s.adapter x lam }

/-- What a user does with an object: solve, solve from a guess, write bounds, guesses or parameters through the references
of ipopt_interface.hpp:441-459. Options of Ipopt may change between the calls, so each solve has its own function. -/
inductive Use (St R : Type) where
  | solve (ipopt : Adapter R → Outcome St R)
  | solveFrom (ipopt : Adapter R → Outcome St R) (x lam : ℕ → R)
  | edit (f : Adapter R → Adapter R)

/-- A session, ipopt_interface.hpp:441-496. -/
def session {St R : Type} [Zero R] (s : Interface St R) : List (Use St R) → Option (Interface St R)
  | [] => some s
  | .solve i :: l => (Ipopt.solve i s).bind fun s' => session s' l
  | .solveFrom i x lam :: l => (Ipopt.solveFrom i x lam s).bind fun s' => session s' l
  | .edit f :: l => session { s with adapter := f s.adapter } l

end PolyMPC.Ipopt
