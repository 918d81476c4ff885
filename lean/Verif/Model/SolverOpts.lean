import Verif.Model.Nmpf
import Verif.Model.PsOde

/-!
# Options and statistics of the Ipopt solver objects

Model of `OPTS`, `USER_OPTS`, `stats` and `solve_status` in `src/nmpc.hpp`, `src/nmpf.hpp`, `src/generic_ocp.hpp` and
`src/integration/chebyshev_integrator.hpp`. `casadi::nlpsol` copies the dictionary that it is given; the solver object is a function of that
dictionary and of its arguments, and also returns its statistics. The keys of a `std::map` are distinct; a dictionary is a function, the
argument of a call a list of pairs, written in the order of the list.
-/

namespace PolyMPC.SolverOpts
open Ocp

/-- The values that occur, `casadi::GenericType`. -/
inductive Val where
  | str (s : String)
  | int (n : ℤ)
  | num (q : ℚ)
deriving DecidableEq

/-- `casadi::Dict`. -/
abbrev Dict := String → Option Val

/-- `D[k] = v`. -/
def put (D : Dict) (k : String) (v : Val) : Dict := fun s => if s = k then some v else D s

/-- The loop of `updateParams`, nmpc.hpp:229-235, nmpf.hpp:250-256, and of `update_solver_params`, generic_ocp.hpp:187-193. -/
def putAll (D : Dict) (l : List (String × Val)) : Dict := l.foldl (fun D e => put D e.1 e.2) D

/-- An empty dictionary. -/
def empty : Dict := fun _ => none

/-- The default options, nmpc.hpp:339-344. -/
def nmpcDefaults : List (String × Val) :=
  [("ipopt.linear_solver", .str "mumps"), ("ipopt.print_level", .int 1), ("ipopt.tol", .num (1 / 10000)),
   ("ipopt.acceptable_tol", .num (1 / 10000)), ("ipopt.max_iter", .int 150), ("ipopt.warm_start_init_point", .str "yes")]

/-- The default options, nmpf.hpp:401-406. -/
def nmpfDefaults : List (String × Val) :=
  [("ipopt.linear_solver", .str "mumps"), ("ipopt.print_level", .int 0), ("ipopt.tol", .num (1 / 10000)),
   ("ipopt.acceptable_tol", .num (1 / 10000)), ("ipopt.max_iter", .int 40), ("ipopt.warm_start_init_point", .str "yes")]

/-- The default options, generic_ocp.hpp:533-537. -/
def genericDefaults : List (String × Val) :=
  [("ipopt.linear_solver", .str "mumps"), ("ipopt.print_level", .int 0), ("ipopt.tol", .num (1 / 10000)),
   ("ipopt.acceptable_tol", .num (1 / 10000)), ("ipopt.warm_start_init_point", .str "yes")]

/-- The default options, chebyshev_integrator.hpp:289-294. -/
def psodeDefaults : List (String × Val) :=
  [("ipopt.linear_solver", .str "mumps"), ("ipopt.print_level", .int 5), ("ipopt.tol", .num (1 / 10000)),
   ("ipopt.acceptable_tol", .num (1 / 10000)), ("ipopt.max_iter", .int 3000), ("ipopt.hessian_approximation", .str "limited-memory")]

/-- The options of the solver of `PSODESolver`, chebyshev_integrator.hpp:289-300. -/
def psodeOpts (user : Dict) : Dict :=
  let D := putAll empty psodeDefaults
  match user "ipopt.linear_solver" with
  | some v => put D "ipopt.linear_solver" v
  | none => D

/-- An object with its options `OPTS`, the dictionary its solver was built from, and the statistics. -/
structure Full (σ : Type) where
  base : σ
  opts : Dict
  built : Dict
  stats : Dict

/-- The options part of `createNLP` as called by the constructors: nmpc.hpp:338-351, nmpf.hpp:400-412, generic_ocp.hpp:533-541. -/
def create {σ : Type} (defaults : List (String × Val)) (user : List (String × Val)) (b : σ) : Full σ :=
  let D := putAll (putAll empty defaults) user
  ⟨b, D, D, empty⟩

section Calls
variable {K : Type} [Field K] [LinearOrder K]

/-- A call of a member of `nmpc`; `updateParams` besides those of `Nmpc.Op`. -/
inductive NOp (K : Type) where
  | call (op : Nmpc.Op K)
  | updateParams (l : List (String × Val))

/-- The statistics after a call, nmpc.hpp:409: those of the solver call in `computeControl`. -/
def nmpcStats (d : Dims) (solver : Dict → Nmpc.Args K → Nmpc.Res K × Dict) (o : Full (Nmpc.Obj K)) : Nmpc.Op K → Dict
  | .computeControl x => ((Nmpc.solveArgs d o.base x).map fun a => (solver o.built a).2).getD o.stats
  | _ => o.stats

/-- The effect of a call, nmpc.hpp:47-87, 229-235. -/
def nmpcStep (d : Dims) (solver : Dict → Nmpc.Args K → Nmpc.Res K × Dict) (o : Full (Nmpc.Obj K)) : NOp K → Option (Full (Nmpc.Obj K))
  | .updateParams l => some { o with opts := putAll o.opts l }
  | .call op => (Nmpc.step d (fun a => (solver o.built a).1) o.base op).map fun b => { o with base := b, stats := nmpcStats d solver o op }

/-- A sequence of calls. -/
def nmpcRun (d : Dims) (solver : Dict → Nmpc.Args K → Nmpc.Res K × Dict) (o : Full (Nmpc.Obj K)) : List (NOp K) → Option (Full (Nmpc.Obj K))
  | [] => some o
  | op :: ops => (nmpcStep d solver o op).bind fun o' => nmpcRun d solver o' ops

/-- A call of a member of `nmpf`; `updateParams` besides those of `Nmpf.Op`. -/
inductive FOp (K : Type) where
  | call (op : Nmpf.Op K)
  | updateParams (l : List (String × Val))

/-- The statistics after a call, nmpf.hpp:501. -/
def nmpfStats (nx nu S N : ℕ) (m : Nmpf.Opts K) (solver : Dict → Nmpc.Args K → (ℕ → K) → Nmpc.Res K × Dict) (o : Full (Nmpf.Obj K)) : Nmpf.Op K → Dict
  | .computeControl x => ((Nmpf.solveArgs nx nu S N m o.base x).map fun a => (solver o.built a o.base.p).2).getD o.stats
  | _ => o.stats

/-- The effect of a call, nmpf.hpp:30-75, 250-256. -/
def nmpfStep (nx nu S N : ℕ) (m : Nmpf.Opts K) (solver : Dict → Nmpc.Args K → (ℕ → K) → Nmpc.Res K × Dict) (o : Full (Nmpf.Obj K)) :
    FOp K → Option (Full (Nmpf.Obj K))
  | .updateParams l => some { o with opts := putAll o.opts l }
  | .call op => (Nmpf.step nx nu S N m (fun a p => (solver o.built a p).1) o.base op).map fun b =>
    { o with base := b, stats := nmpfStats nx nu S N m solver o op }

/-- A sequence of calls. -/
def nmpfRun (nx nu S N : ℕ) (m : Nmpf.Opts K) (solver : Dict → Nmpc.Args K → (ℕ → K) → Nmpc.Res K × Dict) (o : Full (Nmpf.Obj K)) :
    List (FOp K) → Option (Full (Nmpf.Obj K))
  | [] => some o
  | op :: ops => (nmpfStep nx nu S N m solver o op).bind fun o' => nmpfRun nx nu S N m solver o' ops

/-- A call of a public member of `GenericOCP`. -/
inductive GOp (K : Type) where
  | setStateBox (m : ℕ) (lb ub : ℕ → Option K)
  | setControlBox (m : ℕ) (lb ub : ℕ → Option K)
  | setParamBox (m : ℕ) (lb ub : ℕ → Option K)
  | setParameters (m : ℕ) (v : ℕ → K)
  | setNamed (name : String) (m : ℕ) (v : ℕ → K)
  | setMapping (name : String) (ab : ℕ × ℕ)
  | updateSolverParams
  | solve (lb0 ub0 : ℕ → K) (X0 lamX lamG : Option (ℕ → K))

/-- The effect of a call, generic_ocp.hpp:105-199, 644; `user` is `USER_OPTS`. -/
def genericStep {d : Dims} (A : GenOcp.Appr d K) (sc : GenOcp.Scale K) (solver : Dict → GenOcp.Arg K → ((ℕ → K) × (ℕ → K) × (ℕ → K)) × Dict)
    (user : List (String × Val)) (o : Full (GenOcp.Obj K)) : GOp K → Option (Full (GenOcp.Obj K))
  | .setStateBox m lb ub => (GenOcp.setStateBox A sc m lb ub o.base).map fun b => { o with base := b }
  | .setControlBox m lb ub => (GenOcp.setControlBox A sc m lb ub o.base).map fun b => { o with base := b }
  | .setParamBox m lb ub => (GenOcp.setParamBox A sc m lb ub o.base).map fun b => { o with base := b }
  | .setParameters m v => (GenOcp.setParameters m v o.base).map fun b => { o with base := b }
  | .setNamed name m v => (GenOcp.setNamed name m v o.base).map fun b => { o with base := b }
  | .setMapping name ab => some { o with base := GenOcp.setMapping name ab o.base }
  | .updateSolverParams => some { o with opts := putAll o.opts user }
  | .solve lb0 ub0 X0 lamX lamG =>
    let b := GenOcp.solve A sc (fun a => (solver o.built a).1) lb0 ub0 X0 lamX lamG o.base
    some { o with base := b, stats := (solver o.built b.arg).2 }

/-- A sequence of calls. -/
def genericRun {d : Dims} (A : GenOcp.Appr d K) (sc : GenOcp.Scale K) (solver : Dict → GenOcp.Arg K → ((ℕ → K) × (ℕ → K) × (ℕ → K)) × Dict)
    (user : List (String × Val)) (o : Full (GenOcp.Obj K)) : List (GOp K) → Option (Full (GenOcp.Obj K))
  | [] => some o
  | op :: ops => (genericStep A sc solver user o op).bind fun o' => genericRun A sc solver user o' ops

end Calls

end PolyMPC.SolverOpts
