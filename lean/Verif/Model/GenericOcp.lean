import Verif.Model.CasCheb

/-!
# `GenericOCP`: optimal control problems on top of the symbolic transcription

Model of `src/generic_ocp.hpp`, with the approximation classes of `Model/CasCheb.lean`.

As there, a CasADi expression is its value at given values of the symbols, so `setup` is a function of a point: it returns the
values of objective and constraints at the point, together with the sizes and bounds, which do not depend on the point. `none` is a
thrown exception.

Simplifications. A bound is an element of the field or absent (`none`: infinite); a scaling factor is applied to an absent bound as if
it were positive. Assigning to a slice needs a vector of the length of the slice, or of length one, which fills it. Subtracting the
bounds of derivatives whose stacked length is not that of the derivatives throws; so does a derivative of an empty expression
(430 divides by its length). The Ipopt solver object is a function of its
arguments. `generate_nlp_code` is left out, and so are printing, timing and the statistics.
-/

namespace PolyMPC.GenOcp
open Ocp CasCheb

variable {K : Type} [Field K]

/-! ### The approximation class -/

/-- What `GenericOCP` uses of an approximation class; functions come with the answer of `depends_on(res, x)`. -/
structure Appr (d : Dims) (K : Type) where
  npx : ℕ
  npu : ℕ
  pLen : ℕ
  dynamics : ((Fin d.M → K) → ℕ → K) → K → K → (ℕ → K) → (ℕ → K) → (ℕ → K) → ℕ × (ℕ → K)
  cost : ((ℕ → K) → (ℕ → K) → K) → ((Fin d.M → K) → K) → K → K → (ℕ → K) → (ℕ → K) → (ℕ → K) → K
  func : Fn d K → Bool → (ℕ → K) → (ℕ → K) → (ℕ → K) → Option (ℕ × (ℕ → K))
  deriv : Fn d K → Bool → ℕ → (ℕ → K) → (ℕ → K) → (ℕ → K) → Option (ℕ × (ℕ → K))

/-- `Chebyshev`. -/
def cheb (d : Dims) (ND : ℕ) (A : Approx K) : Appr d K where
  npx := d.NN
  npu := d.NN
  pLen := d.NP
  dynamics f t0 tf X U P := (d.VARX, collocateDynamics d A f t0 tf X U P)
  cost m l t0 tf X U P := collocateCost d A (some m) (some l) t0 tf X U P
  func g _ X U P := (collocateFunction d ND g X U P).map fun F => (d.NN * g.n, F)
  deriv g _ q X U P := (differentiateFunction d ND A g q X U P).map fun F => (d.NN * g.n, F)

/-- `SoftChebyshev`. -/
def soft (d : Dims) (ND : ℕ) (A : Approx K) : Appr d K :=
  { cheb d ND A with dynamics := fun f t0 tf X U P => (1, fun _ => softDynamics d A f t0 tf X U P) }

/-- `MSChebyshev`. The published parameter range has length `ND`. -/
def ms (d : Dims) (ND : ℕ) (A : Approx K) : Appr d K where
  npx := MS.NPX d
  npu := d.S
  pLen := MS.pEnd d ND - MS.pStart d
  dynamics f t0 tf X U P := (MS.xEnd d + (d.S - 1) * d.NX, MS.collocateDynamics d A f t0 tf X U P)
  cost m l t0 tf X U P := MS.collocateCost d A (some m) (some l) t0 tf X U P
  func g dep X U P := MS.collocateFunction d ND g dep X U P
  deriv g dep q X U P := MS.differentiateFunction d ND A g dep q X U P

/-- `X_END`, `U_END`, `P_END`, generic_ocp.hpp:218-223; `X_START = 0`, `U_START = X_END`, `P_START = U_END`. -/
def xEnd {d : Dims} (A : Appr d K) : ℕ := A.npx * d.NX
def uEnd {d : Dims} (A : Appr d K) : ℕ := xEnd A + A.npu * d.NU
def pEnd {d : Dims} (A : Appr d K) : ℕ := uEnd A + A.pLen

/-! ### The user's problem and the options -/

/-- An expression handed to `norm_diff` or `diff`: length, value at `(x, u, p, d)`, dependence on the state, bound (for `diff`). -/
structure Expr (K : Type) where
  n : ℕ
  val : (ℕ → K) → (ℕ → K) → (ℕ → K) → (ℕ → K) → ℕ → K
  dep : Bool
  bound : ℕ → K

/-- The callbacks of the derived class and the expressions that they register while they run (`m_norm_diff`, `m_norm_ddiff` from the
cost terms, `m_diff`, `m_ddiff` from the inequality constraints). `costIsZero` is the answer of `cost.is_zero()`. The length of an
inequality constraint is the number of its nonzeros. -/
structure User (K : Type) where
  dyn : (ℕ → K) → (ℕ → K) → (ℕ → K) → (ℕ → K) → ℕ → K
  lag : (ℕ → K) → (ℕ → K) → (ℕ → K) → (ℕ → K) → K
  mayer : (ℕ → K) → (ℕ → K) → (ℕ → K) → K
  ineq : Expr K
  fin : Expr K
  norms : List (Expr K)
  nnorms : List (Expr K)
  diffs : List (Expr K)
  ddiffs : List (Expr K)
  costIsZero : Bool

/-- `NORM_DIFF_VALUE`, the value that `norm_diff` and `norm_ddiff` return into the cost, generic_ocp.hpp:19, 252, 262. -/
def normDiffValue : K := 5

/-- `norm_diff(expr, W)`, generic_ocp.hpp:246-263: the registered expression `mtimes(sqrt(W), expr)`, with the square root taken entry by
entry. -/
noncomputable def normDiff (W : ℕ → ℕ → ℝ) (e : Expr ℝ) : Expr ℝ :=
  { e with val := fun x u p dd i => ∑ j ∈ Finset.range e.n, Real.sqrt (W i j) * e.val x u p dd j }

/-- The entries of `MPC_OPTS` that are looked up; absent: `none`. `penaly` is the key `mpc.slack_penaly_type`. -/
structure Opts (K : Type) where
  scaling : Option Bool := none
  scaleX : Option (List K) := none
  scaleU : Option (List K) := none
  scaleP : Option (List K) := none
  useSlacks : Option Bool := none
  penaly : Option ℤ := none
  penalty : Option ℤ := none
  softRho : Option K := none

/-- Diagonals of `ScX`, `ScU`, `ScP`. -/
structure Scale (K : Type) where
  x : ℕ → K
  u : ℕ → K
  p : ℕ → K

/-- One scaling option, generic_ocp.hpp:311-336: the list must have length `n`. `m` is the size of the unit matrix in `solve`. -/
def scaleOpt (on : Bool) (n m : ℕ) : Option (List K) → Option (ℕ → K)
  | some l => if on then (if l.length = n ∧ n = m then some fun i => l.getD i 1 else none) else some fun _ => 1
  | none => some fun _ => 1

/-- generic_ocp.hpp:294-336. The inverse of `ScP` is computed with `eye(NU)` (334). -/
def scalers (d : Dims) (o : Opts K) : Option (Scale K) := do
  let on := o.scaling.getD false
  let x ← scaleOpt on d.NX d.NX o.scaleX
  let u ← scaleOpt on d.NU d.NU o.scaleU
  let p ← scaleOpt on d.NP d.NU o.scaleP
  some ⟨x, u, p⟩

/-- generic_ocp.hpp:342-343: with the misspelled key present, the other key is read; if that is absent, an empty value is converted, which
throws. `0` is `QUADRATIC`, `1` is `EXACT`. -/
def penaltyType (o : Opts K) : Option ℤ :=
  if o.scaling.getD false && o.penaly.isSome then o.penalty else some 0

/-! ### Functions of the scaled variables -/

/-- The parts of a stacked vector `(x, u, p)`. -/
def zx (d : Dims) (z : Fin d.M → K) : ℕ → K := fun i =>
  if h : i < d.NX then z ⟨i, Nat.lt_of_lt_of_le h (by unfold Dims.M; omega)⟩ else 0
def zu (d : Dims) (z : Fin d.M → K) : ℕ → K := fun i => if h : i < d.NU then z ⟨d.NX + i, by unfold Dims.M; omega⟩ else 0
def zp (d : Dims) (z : Fin d.M → K) : ℕ → K := fun i => if h : i < d.NP then z ⟨d.NX + d.NU + i, by unfold Dims.M; omega⟩ else 0

/-- The first `n` entries. -/
def cut (n : ℕ) (v : ℕ → K) : ℕ → K := fun i => if i < n then v i else 0

/-- `mtimes(invS, v)` for a diagonal scaling. -/
def unscale (s v : ℕ → K) : ℕ → K := fun i => (s i)⁻¹ * v i

/-- `dyn_func`, generic_ocp.hpp:351-358: the parameters are not unscaled. -/
def dynFn (d : Dims) (sc : Scale K) (usr : User K) (D : ℕ → K) : (Fin d.M → K) → ℕ → K := fun z i =>
  sc.x i * usr.dyn (unscale sc.x (zx d z)) (unscale sc.u (zu d z)) (zp d z) D i

/-- `lagrange_cost_func`, generic_ocp.hpp:369-370. -/
def lagFn (d : Dims) (sc : Scale K) (usr : User K) (D : ℕ → K) : (Fin d.M → K) → K := fun z =>
  usr.lag (unscale sc.x (zx d z)) (unscale sc.u (zu d z)) (unscale sc.p (zp d z)) D

/-- `mayer_cost_func`, generic_ocp.hpp:366-367. -/
def mayerFn (d : Dims) (sc : Scale K) (usr : User K) (D : ℕ → K) : (ℕ → K) → (ℕ → K) → K := fun x p =>
  usr.mayer (unscale sc.x (cut d.NX x)) (unscale sc.p (cut d.NP p)) D

/-- A function of `{x, u, p, d}` for an expression in the unscaled variables, e.g. generic_ocp.hpp:389, 419, 427, 481. -/
def exprFn (d : Dims) (sc : Scale K) (D : ℕ → K) (e : Expr K) : Fn d K :=
  ⟨4, e.n, fun z => e.val (unscale sc.x (zx d z)) (unscale sc.u (zu d z)) (unscale sc.p (zp d z)) D⟩

/-! ### The nonlinear program -/

/-- Constraints with their bounds. -/
structure Block (K : Type) where
  n : ℕ
  g : ℕ → K
  lb : ℕ → Option K
  ub : ℕ → Option K

def Block.nil : Block K := ⟨0, fun _ => 0, fun _ => none, fun _ => none⟩

def catV {α : Type} (n : ℕ) (a b : ℕ → α) : ℕ → α := fun i => if i < n then a i else b (i - n)

/-- `vertcat`. -/
def Block.cat (a b : Block K) : Block K := ⟨a.n + b.n, catV a.n a.g b.g, catV a.n a.lb b.lb, catV a.n a.ub b.ub⟩

/-- The program at a point: number of variables, number of slack variables, objective, constraints, and bounds of the variables. -/
structure Nlp (K : Type) where
  nVar : ℕ
  nSlack : ℕ
  f : K
  c : Block K
  lbx : ℕ → Option K
  ubx : ℕ → Option K

/-- The loops over `m_norm_diff`, generic_ocp.hpp:384-406. -/
def addNorms (d : Dims) (A : Appr d K) (sc : Scale K) (D X U P : ℕ → K) (q : ℕ) : List (Expr K) → K → Option K
  | [], c => some c
  | e :: es, c => do
    let t ← A.deriv (exprFn d sc D e) e.dep q X U P
    addNorms d A sc D X U P q es (c + ∑ i ∈ Finset.range t.1, t.2 i * t.2 i)

/-- The loops over `m_diff`, generic_ocp.hpp:423-453: length and values. -/
def addDiffs (d : Dims) (A : Appr d K) (sc : Scale K) (D X U P : ℕ → K) (q : ℕ) : List (Expr K) → ℕ × (ℕ → K) → Option (ℕ × (ℕ → K))
  | [], c => some c
  | e :: es, c => do
    let t ← A.deriv (exprFn d sc D e) e.dep q X U P
    if e.n = 0 ∨ t.1 / e.n * e.n ≠ t.1 then none else
    addDiffs d A sc D X U P q es (c.1 + t.1, catV c.1 c.2 fun i => t.2 i - e.bound (i % e.n))

/-- An inequality block without or with slack variables, generic_ocp.hpp:455-469, 485-499. -/
def ineqBlock (useSlacks : Bool) (c : ℕ × (ℕ → K)) (s : ℕ → K) : Block K :=
  if useSlacks then ⟨c.1, fun i => c.2 i + s i, fun _ => some 0, fun _ => some 0⟩ else ⟨c.1, c.2, fun _ => none, fun _ => some 0⟩

/-- The path constraints at a point, generic_ocp.hpp:415-453. -/
def pathRows (d : Dims) (A : Appr d K) (sc : Scale K) (usr : User K) (D X U P : ℕ → K) : Option (ℕ × (ℕ → K)) :=
  if usr.ineq.n = 0 then some (0, fun _ => 0) else do
    let c0 ← A.func (exprFn d sc D usr.ineq) usr.ineq.dep X U P
    let c1 ← addDiffs d A sc D X U P 1 usr.diffs c0
    addDiffs d A sc D X U P 2 usr.ddiffs c1

/-- The final constraints at a point, generic_ocp.hpp:477-483: the first `ic_func.n_out()` rows, and `n_out()`, the number of outputs of the
function, is one. -/
def finRows (d : Dims) (A : Appr d K) (sc : Scale K) (usr : User K) (D X U P : ℕ → K) : Option (ℕ × (ℕ → K)) :=
  if usr.fin.n = 0 then some (0, fun _ => 0) else do
    let c0 ← A.func (exprFn d sc D usr.fin) usr.fin.dep X U P
    some (slice c0.2 0 1)

/-- generic_ocp.hpp:384-406: nothing is added to a cost that is zero. -/
def normTerms (d : Dims) (A : Appr d K) (sc : Scale K) (usr : User K) (D X U P : ℕ → K) (c : K) : Option K :=
  if usr.costIsZero then some c else (addNorms d A sc D X U P 1 usr.norms c).bind (addNorms d A sc D X U P 2 usr.nnorms)

/-- The cost at a point without the penalty of slack variables, generic_ocp.hpp:360-409, and the block of the dynamics. -/
def costDyn (d : Dims) (A : Appr d K) (o : Opts K) (sc : Scale K) (usr : User K) (t0 tf : K) (D X U P : ℕ → K) : Option (K × Block K) :=
  let dc := A.dynamics (dynFn d sc usr D) t0 tf X U P
  let c0 := A.cost (mayerFn d sc usr D) (lagFn d sc usr D) t0 tf X U P
  if dc.1 = 1 then (normTerms d A sc usr D X U P (c0 + o.softRho.getD 1000000 * dc.2 0)).map fun c => (c, Block.nil)
  else (normTerms d A sc usr D X U P c0).map fun c => (c, ⟨dc.1, dc.2, fun _ => some 0, fun _ => some 0⟩)

/-- The penalty of the slack variables, generic_ocp.hpp:513-525. With `EXACT` the objective is a vector of the length of the slack
variables, which the solver refuses unless that is one. -/
def addPenalty (ty : ℤ) (n : ℕ) (s : ℕ → K) (c : K) : Option K :=
  if ty = 0 then some (c + 10 * ∑ i ∈ Finset.range n, s i * s i) else
  if ty = 1 then (if n = 1 then some (c + (∑ i ∈ Finset.range n, s i * s i + 10 * s 0)) else none) else none

/-- Variables, constraints and bounds, generic_ocp.hpp:455-469, 485-499, 508-530, 543-562; `f` is the objective, `n` the number of variables
without slack variables, `sl` the slack variables. -/
def assemble (us : Bool) (n : ℕ) (dyn : Block K) (pr fr : ℕ × (ℕ → K)) (sl : ℕ → K) (f : K) : Nlp K :=
  let nS := if us then pr.1 + fr.1 else 0
  { nVar := n + nS
    nSlack := nS
    f := f
    c := Block.cat dyn (Block.cat (ineqBlock us pr sl) (ineqBlock us fr fun i => sl (pr.1 + i)))
    lbx := fun i => if n ≤ i then some 0 else none
    ubx := fun _ => none }

/-- The objective with the penalty, if slack variables are in use and there are any (513), and the program. -/
def finish (us : Bool) (ty : ℤ) (n : ℕ) (cd : K × Block K) (pr fr : ℕ × (ℕ → K)) (sl : ℕ → K) : Option (Nlp K) :=
  (if us && pr.1 + fr.1 ≠ 0 then addPenalty ty (pr.1 + fr.1) sl cd.1 else some cd.1).map (assemble us n cd.2 pr fr sl)

/-- `VarU`, `VarP` in the vector of variables; `VarX` comes first. -/
def uOf {d : Dims} (A : Appr d K) (var : ℕ → K) : ℕ → K := fun i => var (xEnd A + i)
def pOf {d : Dims} (A : Appr d K) (var : ℕ → K) : ℕ → K := fun i => var (uEnd A + i)

/-- `setup`, generic_ocp.hpp:287-566, at the point `var = (X, U, P, slacks)` and the data `D`. -/
def setup (d : Dims) (A : Appr d K) (o : Opts K) (usr : User K) (t0 tf : K) (var D : ℕ → K) : Option (Nlp K) := do
  let sc ← scalers d o
  let ty ← penaltyType o
  let cd ← costDyn d A o sc usr t0 tf D var (uOf A var) (pOf A var)
  let pr ← pathRows d A sc usr D var (uOf A var) (pOf A var)
  let fr ← finRows d A sc usr D var (uOf A var) (pOf A var)
  finish (o.useSlacks.getD false) ty (uEnd A + d.NP) cd pr fr fun i => var (uEnd A + d.NP + i)

/-! ### The object -/

/-- The members that change: `ARG`, the results. Multipliers are absent until they are given. -/
structure Arg (K : Type) where
  nVar : ℕ
  lbx : ℕ → Option K
  ubx : ℕ → Option K
  x0 : ℕ → K
  nP : ℕ
  p : ℕ → K
  lamX0 : Option (ℕ → K) := none
  lamG0 : Option (ℕ → K) := none

structure Obj (K : Type) where
  arg : Arg K
  map : String → Option (ℕ × ℕ)
  nlpX : ℕ → K
  nlpLamX : ℕ → K
  nlpLamG : ℕ → K

/-- The object after the constructor, generic_ocp.hpp:543-565. -/
def construct (n : Nlp K) (ND : ℕ) : Obj K where
  arg := { nVar := n.nVar, lbx := n.lbx, ubx := n.ubx, x0 := fun _ => 0, nP := ND, p := fun _ => 0 }
  map := fun _ => none
  nlpX := fun _ => 0
  nlpLamX := fun _ => 0
  nlpLamG := fun _ => 0

/-- `ARG["..."](Slice(a, b)) = v`, `v` of length `m`; `n` is the length of the vector. -/
def assign {α : Type} (n : ℕ) (v : ℕ → α) (a b m : ℕ) (w : ℕ → α) : Option (ℕ → α) :=
  if n < b then none else
  if m = b - a then some (fun i => if a ≤ i ∧ i < b then w (i - a) else v i) else
  if m = 1 then some (fun i => if a ≤ i ∧ i < b then w 0 else v i) else none

/-- `mtimes(Sc, bound)`. -/
def scaleB (s : ℕ → K) (v : ℕ → Option K) : ℕ → Option K := fun i => (v i).map (s i * ·)

/-- `set_state_box_constraints`, generic_ocp.hpp:105-110. `m` is the length of the two arguments. -/
def setStateBox {d : Dims} (A : Appr d K) (sc : Scale K) (m : ℕ) (lb ub : ℕ → Option K) (o : Obj K) : Option (Obj K) := do
  if m ≠ d.NX then none else
  let l ← assign o.arg.nVar o.arg.lbx 0 (xEnd A) (A.npx * d.NX) fun i => scaleB sc.x lb (i % d.NX)
  let u ← assign o.arg.nVar o.arg.ubx 0 (xEnd A) (A.npx * d.NX) fun i => scaleB sc.x ub (i % d.NX)
  some { o with arg := { o.arg with lbx := l, ubx := u } }

/-- `set_control_box_constraints`, generic_ocp.hpp:112-117. -/
def setControlBox {d : Dims} (A : Appr d K) (sc : Scale K) (m : ℕ) (lb ub : ℕ → Option K) (o : Obj K) : Option (Obj K) := do
  if m ≠ d.NU then none else
  let l ← assign o.arg.nVar o.arg.lbx (xEnd A) (uEnd A) (A.npu * d.NU) fun i => scaleB sc.u lb (i % d.NU)
  let u ← assign o.arg.nVar o.arg.ubx (xEnd A) (uEnd A) (A.npu * d.NU) fun i => scaleB sc.u ub (i % d.NU)
  some { o with arg := { o.arg with lbx := l, ubx := u } }

/-- `set_parameters_box_constraints`, generic_ocp.hpp:119-124. -/
def setParamBox {d : Dims} (A : Appr d K) (sc : Scale K) (m : ℕ) (lb ub : ℕ → Option K) (o : Obj K) : Option (Obj K) := do
  if m ≠ d.NP then none else
  let l ← assign o.arg.nVar o.arg.lbx (uEnd A) (pEnd A) d.NP (scaleB sc.p lb)
  let u ← assign o.arg.nVar o.arg.ubx (uEnd A) (pEnd A) d.NP (scaleB sc.p ub)
  some { o with arg := { o.arg with lbx := l, ubx := u } }

/-- `get_optimal_trajectory`, generic_ocp.hpp:128-133: entry in row `i`, column `k`. -/
def getTrajectory (d : Dims) (sc : Scale K) (o : Obj K) (i k : ℕ) : K := (sc.x i)⁻¹ * o.nlpX (k * d.NX + i)

/-- `get_optimal_control`, generic_ocp.hpp:136-141. -/
def getControl {d : Dims} (A : Appr d K) (sc : Scale K) (o : Obj K) (i k : ℕ) : K := (sc.u i)⁻¹ * o.nlpX (xEnd A + (k * d.NU + i))

/-- `get_optimal_parameters`, generic_ocp.hpp:144-148: number of rows, of columns, entries. A product with a scalar multiplies every entry. -/
def getParameters {d : Dims} (A : Appr d K) (sc : Scale K) (o : Obj K) : Option (ℕ × ℕ × (ℕ → ℕ → K)) :=
  if o.arg.nVar < pEnd A then none else
  if A.pLen = d.NP then some (d.NP, 1, fun i _ => (sc.p i)⁻¹ * o.nlpX (uEnd A + i)) else
  if d.NP = 1 then some (A.pLen, 1, fun i _ => (sc.p 0)⁻¹ * o.nlpX (uEnd A + i)) else
  if A.pLen = 1 then some (d.NP, d.NP, fun i j => if i = j then (sc.p i)⁻¹ * o.nlpX (uEnd A) else 0) else none

/-- `get_slacks`, generic_ocp.hpp:151-154. -/
def getSlacks {d : Dims} (A : Appr d K) (o : Obj K) : ℕ × (ℕ → K) := slice o.nlpX (pEnd A) o.arg.nVar

/-- `set_parameters(vector)`, generic_ocp.hpp:160-164. -/
def setParameters (m : ℕ) (v : ℕ → K) (o : Obj K) : Option (Obj K) :=
  if m = o.arg.nP then some { o with arg := { o.arg with p := v } } else none

/-- `set_parameters(name, value)`, generic_ocp.hpp:166-175. -/
def setNamed (name : String) (m : ℕ) (v : ℕ → K) (o : Obj K) : Option (Obj K) := do
  let ab ← o.map name
  let p ← assign o.arg.nP o.arg.p ab.1 ab.2 m v
  some { o with arg := { o.arg with p := p } }

/-- `set_parameter_mapping(name, indices)`, generic_ocp.hpp:182-185. -/
def setMapping (name : String) (ab : ℕ × ℕ) (o : Obj K) : Obj K :=
  { o with map := fun s => if s = name then some ab else o.map s }

/-- `NLP_Solver(ARG)`: an arbitrary function of the arguments; `x`, `lam_x`, `lam_g`. -/
abbrev Solver (K : Type) := Arg K → (ℕ → K) × (ℕ → K) × (ℕ → K)

/-- `solve`, generic_ocp.hpp:616-645. Absent optional arguments are `none`. -/
def solve {d : Dims} (A : Appr d K) (sc : Scale K) (S : Solver K) (lb0 ub0 : ℕ → K) (X0 lamX lamG : Option (ℕ → K)) (o : Obj K) : Obj K :=
  let a := o.arg
  let lbx : ℕ → Option K := fun i => if xEnd A - d.NX ≤ i ∧ i < xEnd A then some (sc.x (i - (xEnd A - d.NX)) * lb0 (i - (xEnd A - d.NX))) else a.lbx i
  let ubx : ℕ → Option K := fun i => if xEnd A - d.NX ≤ i ∧ i < xEnd A then some (sc.x (i - (xEnd A - d.NX)) * ub0 (i - (xEnd A - d.NX))) else a.ubx i
  let x0 : ℕ → K := match X0 with
    | some v => v
    | none => fun i => if i < xEnd A then sc.x (i % d.NX) * (1 / 2 * (lb0 (i % d.NX) + ub0 (i % d.NX))) else a.x0 i
  let a' : Arg K := { a with lbx := lbx, ubx := ubx, x0 := x0, lamX0 := lamX.or a.lamX0, lamG0 := lamG.or a.lamG0 }
  let r := S a'
  { o with arg := a', nlpX := r.1, nlpLamX := r.2.1, nlpLamG := r.2.2 }

end PolyMPC.GenOcp
