import Verif.Model.Nmpc

/-!
# `PSODESolver`: initial value problems by collocation

Model of `src/integration/chebyshev_integrator.hpp` (`PSODESolver`), with `Chebyshev` of `Model/CasCheb.lean`. The class
`eig_chebyshev_solver` of the same file has no code.

As there, a CasADi expression is its value at given values of the symbols; `none` is a thrown exception. The template arguments are the
fields `NX`, `NU`, `NP`, `NumSegments = S`, `PolyOrder = N` of `Dims`. The horizon `dt` is the value after the conversion to `float` (178).
The members `P`, `R`, `scale` are public; they are taken to stay as the constructor leaves them. `set_dt` (186) is declared but has no definition.

Assumptions on CasADi (3.5), for dense matrices. `mtimes` multiplies by a scalar on either side, else the inner sizes must agree. Assigning
to a slice of a column takes a column of the length of the slice, a row of that length, or a scalar that fills it. The argument `p` of a solver
object takes a column of the right length, any empty matrix (zeros), a scalar, or a row of the right length. A `bool` where a `DM` is
expected is the matrix with the entry 0 or 1.

Simplifications. A parameter argument with several columns, for which CasADi solves several problems, is refused here. Scaling matrices are
square and come with their inverse. The option `scale` is the number after truncation (208). The Ipopt solver object is a
function of its arguments. Printing, the statistics and the solver options are left out.
-/

namespace PolyMPC.PsOde
open Ocp CasCheb GenOcp Nmpc

variable {K : Type} [Field K]

/-! ### Matrices -/

/-- A dense `casadi::DM`. -/
structure DM (K : Type) where
  rows : ℕ
  cols : ℕ
  a : ℕ → ℕ → K

/-- `is_scalar`. -/
def DM.scalar (x : DM K) : Bool := x.rows == 1 && x.cols == 1

/-- A column. -/
def DM.col (n : ℕ) (v : ℕ → K) : DM K := ⟨n, 1, fun i _ => v i⟩

/-- `DM()`. -/
def DM.empty : DM K := ⟨0, 0, fun _ _ => 0⟩

/-- `DM(c)`. -/
def DM.num (c : K) : DM K := ⟨1, 1, fun _ _ => c⟩

/-- A square matrix. -/
def DM.ofMat (A : Mat K) : DM K := ⟨A.n, A.n, A.a⟩

/-- `mtimes(x, y)`. -/
def DM.mtimes (x y : DM K) : Option (DM K) :=
  if x.scalar then some ⟨y.rows, y.cols, fun i j => x.a 0 0 * y.a i j⟩ else
  if y.scalar then some ⟨x.rows, x.cols, fun i j => x.a i j * y.a 0 0⟩ else
  if x.cols = y.rows then some ⟨x.rows, y.cols, fun i j => ∑ k ∈ Finset.range x.cols, x.a i k * y.a k j⟩ else none

/-- `repmat(x, n, 1)`. -/
def DM.rep (n : ℕ) (x : DM K) : DM K := ⟨n * x.rows, x.cols, fun i j => x.a (i % x.rows) j⟩

/-- `reshape(x, r, c)` followed by `mtimes(A, .)` and `vec`, for a column: what the code does to apply a matrix node by node. -/
def DM.eachBlock (A x : DM K) (r c : ℕ) : Option (DM K) :=
  if x.rows * x.cols = r * c then
    (A.mtimes ⟨r, c, fun i j => x.a (j * r + i) 0⟩).map fun y => DM.col (y.rows * y.cols) fun k => y.a (k % y.rows) (k / y.rows)
  else none

/-- `v(Slice(a, a + n), 0) = x`. -/
def assign {T : Type} (v : ℕ → T) (a n : ℕ) (x : DM K) (f : K → T) : Option (ℕ → T) :=
  if x.rows = n ∧ x.cols = 1 then some (put v a n fun i => f (x.a i 0)) else
  if x.scalar then some (put v a n fun _ => f (x.a 0 0)) else
  if x.cols = n ∧ x.rows = 1 then some (put v a n fun i => f (x.a 0 i)) else none

/-- A solver argument where a column of length `n` is expected. -/
def argCol (n : ℕ) (x : DM K) : Option (ℕ → K) :=
  if x.rows = n ∧ x.cols = 1 then some fun i => x.a i 0 else
  if x.rows = 0 ∨ x.cols = 0 then some fun _ => 0 else
  if x.scalar then some fun _ => x.a 0 0 else
  if x.cols = n ∧ x.rows = 1 then some fun i => x.a 0 i else none

/-- `inv(P)` of the argument `P`, chebyshev_integrator.hpp:377, 388, 462, 473. For other than scalar arguments the code does not get here (`scaled_scalar`). -/
def DM.inv (x : DM K) : Option (DM K) := if x.scalar then some (DM.num (x.a 0 0)⁻¹) else none

/-! ### Construction -/

/-- The right-hand side: number of inputs, value. -/
structure Ode (K : Type) where
  nIn : ℕ
  f : (ℕ → K) → (ℕ → K) → (ℕ → K) → ℕ → K

/-- The dictionary `props`, chebyshev_integrator.hpp:207-212. A scaling is a matrix with its inverse. -/
structure Props (K : Type) where
  scale : Option ℤ := none
  P : Option (Mat K × Mat K) := none
  R : Option (Mat K × Mat K) := none

/-- `scale` as a condition, chebyshev_integrator.hpp:203, 207-208. -/
def Props.on (o : Props K) : Bool := o.scale.getD 0 ≠ 0

/-- The members `P` and `R` with their inverses, chebyshev_integrator.hpp:204-205, 209-212, 221-222. -/
def Props.matP (d : Dims) (o : Props K) : Mat K × Mat K := o.P.getD (eye d.NX, eye d.NX)
def Props.matR (d : Dims) (o : Props K) : Mat K × Mat K := o.R.getD (eye d.NU, eye d.NU)

/-- The function handed to the transcription, chebyshev_integrator.hpp:227-239, 246-254: number of inputs, value. -/
def funSode (d : Dims) (ode : Ode K) (o : Props K) : Fn d K :=
  if o.on then
    ⟨if 0 < d.NP then 3 else 2, d.NX, fun z =>
      (o.matP d).1.app d.NX (ode.f ((o.matP d).2.app d.NX (zx d z)) ((o.matR d).2.app d.NU (zu d z)) (zp d z))⟩
  else ⟨if 0 < d.NP then 4 else 2, d.NX, fun z => ode.f (zx d z) (zu d z) (zp d z)⟩

/-- The conditions under which the constructor does not throw: the products with the scaling matrices (229-230, 236-237), the number of inputs of the
right-hand side (229, 236, 252, 254), and the number of arguments that the transcription passes (241, 255). -/
def buildOk (d : Dims) (ode : Ode K) (o : Props K) : Bool :=
  (!o.on || ((o.matP d).1.fits d.NX && (o.matP d).2.fits d.NX && (o.matR d).2.fits d.NU)) &&
  (ode.nIn == if 0 < d.NP then 3 else 2) && ((funSode d ode o).nIn == nArgs d 0)

/-- The program at a point: variables are states and controls; all rows are equations; the last `NX` rows of the transcription are cut off (258). chebyshev_integrator.hpp:258-267, 284-287. -/
def nlp (d : Dims) (A : Approx K) (ode : Ode K) (o : Props K) (dt : K) (p var : ℕ → K) : Option (Nmpc.Nlp K) :=
  if buildOk d ode o then
    let G := collocateDynamics d A (funSode d ode o).val 0 dt var (fun i => var (d.VARX + i)) p
    some ⟨d.VARX + d.VARU, 1 / 1000 * ∑ r ∈ Finset.range (d.VARX - d.NX), G r * G r, d.VARX - d.NX, G⟩
  else none

/-- Arguments of the solver, `ARG` without `lbg`, `ubg`, which stay zero. In the guess `none` is NaN. -/
structure Args (K : Type) where
  lbx : ℕ → Option K
  ubx : ℕ → Option K
  x0 : ℕ → Option K
  p : ℕ → K

/-- The members that calls after construction read or write. -/
structure Obj (K : Type) where
  scale : Bool
  R : Mat K
  arg : Args K

/-- The constructor, chebyshev_integrator.hpp:199-316. The guess is the mean of infinite bounds of opposite sign (311-315). -/
def construct (d : Dims) (ode : Ode K) (o : Props K) : Option (Obj K) :=
  if buildOk d ode o then some ⟨o.on, (o.matR d).1, ⟨fun _ => none, fun _ => none, fun _ => none, fun _ => 0⟩⟩ else none

/-! ### Calls -/

/-- Initial state and control in the units of the program. In both functions the name `P` is the argument, not the member: chebyshev_integrator.hpp:336, 340-341, 422, 426-427. -/
def initial (ob : Obj K) (X0 P : DM K) : Option (DM K) := if ob.scale then P.mtimes X0 else some X0

/-- The control of `solve` in the units of the program, chebyshev_integrator.hpp:337, 344-345. -/
def control (ob : Obj K) (U : DM K) : Option (DM K) := if ob.scale then (DM.ofMat ob.R).mtimes U else some U

/-- The controls of `solve_trajectory` in the units of the program, chebyshev_integrator.hpp:416-423, 430-431. -/
def controls (d : Dims) (ob : Obj K) (U : DM K) : Option (DM K) := if ob.scale then DM.eachBlock (DM.ofMat ob.R) U d.NU d.NN else some U

/-- `ARG` before the solver is called, chebyshev_integrator.hpp:336-364, 422-450: `x` is the initial state, `u` the stacked controls. -/
def prepare (d : Dims) (ob : Obj K) (x u P : DM K) : Option (Args K) := do
  let g ← assign ob.arg.x0 0 d.VARX (x.rep d.NN) some
  let g ← assign g d.VARX d.VARU u some
  let lb ← assign ob.arg.lbx (d.S * d.N * d.NX) d.NX x some
  let ub ← assign ob.arg.ubx (d.S * d.N * d.NX) d.NX x some
  let lb ← assign lb d.VARX d.VARU u some
  let ub ← assign ub d.VARX d.VARU u some
  let p ← argCol d.NP P
  some ⟨lb, ub, g, p⟩

/-- The end of both functions, chebyshev_integrator.hpp:372-391, 457-476. `whole` is the length of the vector that is reshaped: in `solve` all variables (378), in
`solve_trajectory` the states (463). -/
def extract (d : Dims) (ob : Obj K) (P : DM K) (full : Bool) (whole : ℕ) (x : ℕ → K) : Option (DM K) :=
  if full then
    if ob.scale then P.inv.bind fun i => DM.eachBlock i (DM.col whole x) d.NX d.NN else some (DM.col d.VARX x)
  else if ob.scale then P.inv.bind fun i => i.mtimes (DM.col d.NX x) else some (DM.col d.NX x)

/-- `solve`, chebyshev_integrator.hpp:318-395: the object afterwards and the answer. -/
def solve (d : Dims) (solver : Args K → Nmpc.Res K) (ob : Obj K) (X0 U P : DM K) (full : Bool) : Option (Obj K × DM K) :=
  if U.rows ≠ d.NU then some (ob, X0) else do
  let x ← initial ob X0 P
  let u ← control ob U
  let a ← prepare d ob x (u.rep d.NN) P
  let y ← extract d ob P full (d.VARX + d.VARU) (solver a).x
  some ({ ob with arg := a }, y)

/-- The call `solve(X0, U, full)`, in which the third argument is the parameter `P` (180). -/
def solveBool (d : Dims) (solver : Args K → Nmpc.Res K) (ob : Obj K) (X0 U : DM K) (full : Bool) : Option (Obj K × DM K) :=
  solve d solver ob X0 U (DM.num (if full then 1 else 0)) false

/-- The answer of `solve_trajectory`: the entries `x`, `lam_x`, `lam_g`. -/
structure Traj (K : Type) where
  x : DM K
  lamX : DM K
  lamG : DM K

/-- `solve_trajectory`, chebyshev_integrator.hpp:397-481. -/
def solveTrajectory (d : Dims) (solver : Args K → Nmpc.Res K) (ob : Obj K) (X0 U P : DM K) (full : Bool) : Option (Obj K × Traj K) :=
  if U.rows ≠ d.NN * d.NU then some (ob, ⟨X0, DM.col X0.rows fun _ => 0, DM.col X0.rows fun _ => 0⟩) else do
  let x ← initial ob X0 P
  let u ← controls d ob U
  let a ← prepare d ob x u P
  let y ← extract d ob P full d.VARX (solver a).x
  some ({ ob with arg := a }, ⟨y, DM.col (d.VARX + d.VARU) (solver a).lamX, DM.col (d.VARX - d.NX) (solver a).lamG⟩)

/-- The calls a user can make after construction. -/
inductive Op (K : Type) where
  | solve (X0 U P : DM K) (full : Bool)
  | solveTrajectory (X0 U P : DM K) (full : Bool)

/-- The object after a call. -/
def step (d : Dims) (solver : Args K → Nmpc.Res K) (ob : Obj K) : Op K → Option (Obj K)
  | .solve X0 U P full => (solve d solver ob X0 U P full).map Prod.fst
  | .solveTrajectory X0 U P full => (solveTrajectory d solver ob X0 U P full).map Prod.fst

/-- A sequence of calls. -/
def run (d : Dims) (solver : Args K → Nmpc.Res K) (ob : Obj K) : List (Op K) → Option (Obj K)
  | [] => some ob
  | op :: ops => (step d solver ob op).bind fun ob' => run d solver ob' ops

end PolyMPC.PsOde
