import Mathlib.Analysis.SpecialFunctions.Trigonometric.Basic
import Mathlib.Analysis.SpecialFunctions.Trigonometric.Inverse
import Mathlib.LinearAlgebra.CrossProduct
import Verif.Model.Splines

/-!
# The numeric helpers of `src/polymath.h`, `src/polymath.cpp` and `src/integration/integrator.cpp`

Quaternions, the RK4 step and the `ODESolver` front end, the `cheb` grid, Chebyshev expansions, `factorial`, `range`, the Lagrange
helpers. The linear-system routines of the same files are in `Model/Lqr.lean`. Scalars are exact. External: CasADi's `dot`, `cross`,
`vertcat`, slicing and elementwise operators have their textbook meaning; `Eigen::roots_to_monicPolynomial` and `Eigen::poly_eval` as in
`Model/Splines.lean`; the CVODES integrator is an arbitrary partial function.
-/

namespace PolyMPC.Util

/-! ### Quaternions -/

section
variable {K : Type*} [Field K]

/-- The vector part `q(Slice(1,4),0)`, polymath.cpp:27, 30, 47. -/
def vecPart (q : Fin 4 → K) : Fin 3 → K := fun i => q i.succ

/-- `quat_multiply`, polymath.cpp:24-36. -/
def quatMultiply (q1 q2 : Fin 4 → K) : Fin 4 → K :=
  Fin.cons (q1 0 * q2 0 - vecPart q1 ⬝ᵥ vecPart q2)
    (crossProduct (vecPart q1) (vecPart q2) + q1 0 • vecPart q2 + q2 0 • vecPart q1)

/-- `quat_inverse`, polymath.cpp:38-42: the conjugate, without division by the squared norm. -/
def quatInverse (q : Fin 4 → K) : Fin 4 → K := ![q 0, -q 1, -q 2, -q 3]

/-- `quat_transform`, polymath.cpp:44-48. -/
def quatTransform (q : Fin 4 → K) (a : Fin 3 → K) : Fin 3 → K :=
  vecPart (quatMultiply q (quatMultiply (Fin.cons 0 a) (quatInverse q)))

end

/-- `T1quat`, polymath.cpp:20. -/
noncomputable def T1quat (θ : ℝ) : Fin 4 → ℝ := ![Real.cos (-θ / 2), Real.sin (-θ / 2), 0, 0]

/-- `T2quat`, polymath.cpp:21. -/
noncomputable def T2quat (θ : ℝ) : Fin 4 → ℝ := ![Real.cos (-θ / 2), 0, Real.sin (-θ / 2), 0]

/-- `T3quat`, polymath.cpp:22. -/
noncomputable def T3quat (θ : ℝ) : Fin 4 → ℝ := ![Real.cos (-θ / 2), 0, 0, Real.sin (-θ / 2)]

/-! ### Small functions -/

/-- `heaviside`, polymath.cpp:52-55. -/
noncomputable def heaviside (x k : ℝ) : ℝ := k / (1 + Real.exp (-4 * x))

/-- `spheric2cart`, polymath.h:116-125. -/
noncomputable def spheric2cart (azimuth elevation radius : ℝ) : Fin 3 → ℝ :=
  ![radius * Real.cos elevation * Real.cos azimuth, radius * Real.cos elevation * Real.sin azimuth, radius * Real.sin elevation]

/-- `factorial`, polymath.cpp:325-332: `unsigned` accumulation; the loop variable is an `int`, whose increment past its largest value is
undefined. -/
def factorial (n : ℕ) : Option UInt32 :=
  if 2 ^ 31 - 1 ≤ n then none else some ((List.range n).foldl (fun fact i => fact * UInt32.ofNat (i + 1)) 1)

section
variable {K : Type*} [Field K] [LinearOrder K]

/-- The loop of `range`, polymath.h:58-59, cut off after `fuel` tests of the loop condition; `none` when it is still running. -/
def rangeLoop (last step : K) : ℕ → K → List K → Option (List K)
  | 0, _, _ => none
  | fuel + 1, value, acc => if value ≤ last then rangeLoop last step fuel (value + step) (acc ++ [value]) else some acc

/-- `range(first, last, step)` ends with the list `r`, polymath.h:54-62. -/
def RangeReturns (first last step : K) (r : List K) : Prop := ∃ fuel, rangeLoop last step fuel first [] = some r

end

/-! ### Runge-Kutta -/

section
variable {K V U P : Type*} [Field K] [AddCommGroup V] [Module K V]

/-- `rk4_symbolic`, polymath.cpp:57-72. -/
def rk4Symbolic (x : V) (u : U) (func : V → U → V) (h : K) : V :=
  let k1 := func x u
  let k2 := func (x + (1 / 2 * h : K) • k1) u
  let k3 := func (x + (1 / 2 * h : K) • k2) u
  let k4 := func (x + h • k3) u
  x + (h / 6) • (k1 + (2 : K) • k2 + (2 : K) • k3 + k4)

/-- `ODESolver::rk4_solve`, integrator.cpp:68-80. -/
def rk4Solve (rhs : V → U → P → V) (x0 : V) (u : U) (p : P) (dt : K) : V :=
  let k1 := rhs x0 u p
  let k2 := rhs (x0 + (1 / 2 * dt : K) • k1) u p
  let k3 := rhs (x0 + (1 / 2 * dt : K) • k2) u p
  let k4 := rhs (x0 + dt • k3) u p
  x0 + (dt / 6) • (k1 + (2 : K) • k2 + (2 : K) • k3 + k4)

/-- `ODESolver`, integrator.h:10-45, integrator.cpp:6-66: the right-hand side, the entry `"method"` of the dictionary `Parameters`, the
value the constructor saw when it decided whether to create the CVODES object, and that object as an unknown partial function of the
state and the time-scaled right-hand side's data `(u, dt, p)`. -/
structure ODESolver (K V U P : Type*) where
  rhs : V → U → P → V
  method : ℤ
  built : ℤ
  cvodes : V → U → K → P → Option V

/-- The outcome of a call: a state or CasADi's empty matrix. -/
inductive OdeResult (V : Type*) where
  | state (x : V)
  | empty

/-- The constructor with `"method"` given, integrator.cpp:9-24, 53-65. -/
def ODESolver.make (rhs : V → U → P → V) (cvodes : V → U → K → P → Option V) (method : Option ℤ) : ODESolver K V U P :=
  ⟨rhs, method.getD 1, method.getD 1, cvodes⟩

/-- `updateParams` with a dictionary containing `"method"`, integrator.cpp:82-91. -/
def ODESolver.setMethod (S : ODESolver K V U P) (m : ℤ) : ODESolver K V U P := { S with method := m }

/-- `solve(x0, u, p, dt)`, integrator.cpp:93-130. An exception of CVODES is caught and the absent entry `"xf"` is default-constructed;
calling the integrator that was never created throws inside the same `try` block. -/
def ODESolver.solve (S : ODESolver K V U P) (x0 : V) (u : U) (p : P) (dt : K) : OdeResult V :=
  if S.method = 0 then .state (rk4Solve S.rhs x0 u p dt)
  else if S.method = 1 then
    if S.built = 1 then
      match S.cvodes x0 u dt p with
      | some x => .state x
      | none => .empty
    else .empty
  else .empty

end

/-! ### `cheb` -/

/-- `X`, polymath.cpp:78-82. -/
noncomputable def chebX (N : ℕ) (i : Fin (N + 1)) : ℝ := Real.cos (i.val * (Real.pi / N))

/-- `CollocPoints`, polymath.cpp:85. -/
noncomputable def chebPoints (N : ℕ) (a b : ℝ) (i : Fin (N + 1)) : ℝ := (chebX N i + a + 1) * ((b - a) / 2)

/-- `c`, polymath.cpp:88-89. -/
noncomputable def chebC (N : ℕ) (i : Fin (N + 1)) : ℝ := (-1) ^ i.val * (if i.val = 0 ∨ i.val = N then 2 else 1)

/-- `Dn`, polymath.cpp:91-93. -/
noncomputable def chebDn (N : ℕ) (a b : ℝ) : Matrix (Fin (N + 1)) (Fin (N + 1)) ℝ := Matrix.of fun i j =>
  chebC N i * (1 / chebC N j) / (chebPoints N a b i - chebPoints N a b j + if i = j then 1 else 0)

/-- `cheb`, polymath.cpp:74-96. For `N = 0` the vector `ones(N-1,1)` has a huge unsigned length and for an empty interval the
off-diagonal entries divide by zero: both are undefined. -/
noncomputable def cheb (N : ℕ) (a b : ℝ) : Option ((Fin (N + 1) → ℝ) × Matrix (Fin (N + 1)) (Fin (N + 1)) ℝ) :=
  if N = 0 ∨ a = b then none
  else some (chebPoints N a b, chebDn N a b - Matrix.diagonal fun i => ∑ j, chebDn N a b i j)

/-! ### Chebyshev expansions -/

section
variable {K : Type*} [Field K]

/-- The table `T`, polymath.h:78-88: the loop pushes `2 x T[k-1] - T[k-2]` for `k = 2 .. n-1`. -/
def expansionTable (x : K) (n : ℕ) : List K :=
  (List.range (n - 2)).foldl (fun T j => T ++ [2 * x * T.getD (j + 1) 0 - T.getD j 0]) [1, x]

/-- `chebyshev_expansion`, polymath.h:71-96; `none` is the infinity returned for an empty vector. -/
def chebyshevExpansion (f : List K) (x : K) : Option K :=
  if f = [] then none
  else some ((List.range f.length).foldl (fun r i => r + (expansionTable x f.length).getD i 0 * f.getD i 0) 0)

end

/-- `chebyshev_expansion2`, polymath.h:99-114. `acos` is defined on `[-1, 1]` only. -/
noncomputable def chebyshevExpansion2 (f : List ℝ) (x : ℝ) : Option ℝ :=
  if f = [] then none
  else if x < -1 ∨ 1 < x then none
  else some ((List.range f.length).foldl (fun (r : ℝ) (k : ℕ) => r + Real.cos (k * Real.arccos x) * f.getD k 0) 0)

/-! ### Lagrange helpers -/

section
variable {K : Type*} [Field K] [DecidableEq K]

/-- `lagrange_poly(n)` evaluated at `(t, nodes)`, polymath.cpp:128-145; a division by zero is undefined. -/
def lagrangePoly {n : ℕ} (t : K) (nodes : Fin (n + 1) → K) (k : Fin (n + 1)) : Option K :=
  (List.finRange (n + 1)).foldlM (fun acc j =>
    if j = k then some acc else if nodes k - nodes j = 0 then none else some (acc * ((t - nodes j) / (nodes k - nodes j)))) 1

/-- The members of `LagrangeInterpolator`, polymath.h:170-172: a square basis matrix and a coefficient vector, both of dynamic size. -/
structure Interpolator (K : Type*) where
  n : ℕ
  basis : Fin n → Fin n → K
  m : ℕ
  coef : Fin m → K

/-- `values.transpose() * m_poly_basis`. -/
def combine {n : ℕ} (values : Fin n → K) (basis : Fin n → Fin n → K) : Fin n → K := fun k => ∑ i, values i * basis i k

/-- The constructors and `init`, polymath.cpp:235-253, 260-278; the sizes are asserted equal. `lagrange_poly_basis`,
polymath.cpp:212-232, is the routine `Splines.lagrangeBasis`. -/
noncomputable def Interpolator.init {n k : ℕ} (nodes : Fin n → K) (values : Fin k → K) : Option (Interpolator K) :=
  if h : n = k then
    (Splines.lagrangeBasis nodes).map fun B => ⟨n, B, n, combine (fun i => values (i.cast h)) B⟩
  else none

/-- `update_basis`, polymath.cpp:255-258: only the basis changes. -/
noncomputable def Interpolator.updateBasis {n : ℕ} (S : Interpolator K) (nodes : Fin n → K) : Option (Interpolator K) :=
  (Splines.lagrangeBasis nodes).map fun B => ⟨n, B, S.m, S.coef⟩

/-- `eval(arg)`, polymath.cpp:280-283; `poly_eval` of an empty vector is undefined. -/
def Interpolator.eval (S : Interpolator K) (arg : K) : Option K :=
  if S.m = 0 then none else some (Splines.polyEval S.coef arg)

/-- `eval(arg, values)` with a CasADi vector, polymath.cpp:292-297: the product needs as many values as basis rows. -/
def Interpolator.evalDM {k : ℕ} (S : Interpolator K) (arg : K) (values : Fin k → K) : Option (K × Interpolator K) :=
  if h : S.n = k then
    let S' : Interpolator K := { S with m := S.n, coef := combine (fun i => values (i.cast h)) S.basis }
    (S'.eval arg).map fun y => (y, S')
  else none

/-- `eval(arg, values)` with an Eigen vector, polymath.cpp:285-290: in addition the size of the *stored coefficients* is asserted. -/
def Interpolator.evalEigen {k : ℕ} (S : Interpolator K) (arg : K) (values : Fin k → K) : Option (K × Interpolator K) :=
  if S.m = k then S.evalDM arg values else none

/-! ### `GenericLagrangeInterpolator` -/

/-- The three types for which `GenericLagrangeInterpolator` has member functions, polymath.h:205-209. -/
inductive GenericType where
  | casadiDM
  | matrixXd
  | vectorXd
deriving DecidableEq

/-- The constructor, polymath.h:211-214, 256-285. For an Eigen type the basis is an object of the same type as the nodes
(polymath.h:177-178): a `VectorXd` takes an `n x n` matrix for `n = 1` only. Trusted about Eigen: an assignment whose column count does
not fit a compile-time column count is an assertion failure. -/
noncomputable def Generic.init {n k : ℕ} (T : GenericType) (nodes : Fin n → K) (values : Fin k → K) : Option (Interpolator K) :=
  if T = .vectorXd ∧ n ≠ 1 then none else Interpolator.init nodes values

/-- `eval(arg, values)`, polymath.h:238-253. For `MatrixXd` the product `values.transpose() * m_poly_basis` is a `1 x n` matrix whose row
count is not known to the compiler, and `VectorXd interpolant` takes it for `n = 1` only (for a compile-time row Eigen transposes). -/
noncomputable def Generic.eval {k : ℕ} (T : GenericType) (S : Interpolator K) (arg : K) (values : Fin k → K) : Option (K × Interpolator K) :=
  if T = .matrixXd ∧ S.n ≠ 1 then none else S.evalDM arg values

end

/-! ### Functions on columns -/

/-- The elements picked by the CasADi slice `Slice(-1, 0, -1)` from a list of length `n > 0`: indices `n-1` down to `1`. -/
def sliceDown {α : Type*} (l : List α) : List α := (List.range (l.length - 1)).filterMap fun k => l[l.length - 1 - k]?

/-- One direction of `flip`, polymath.cpp:179, 181: `l` is the list of rows or of columns; picking element 0 of an empty list throws. -/
def flipList {α : Type*} (l : List α) : Option (List α) :=
  match l[0]? with
  | none => none
  | some first => some (sliceDown l ++ [first])

/-- `flip`, polymath.cpp:175-186, for a matrix given by its columns, each with `rows` entries. -/
def flip {α : Type*} (rows : ℕ) (cols : List (List α)) (dim : ℕ) : Option (List (List α)) :=
  if dim = 1 then (if rows = 0 then none else cols.mapM flipList)
  else if dim = 2 then flipList cols
  else some cols

/-- `mat_func`, polymath.cpp:98-110: the loop appends the value at each column. -/
def matFunc {α β : Type*} (func : α → List β) (columns : List α) : List β :=
  columns.foldl (fun output col => output ++ func col) []

/-- The loop of `mat_dynamics`, polymath.cpp:118-122, from index `i` on; `x[i]` past the end is undefined. -/
def matDynamicsLoop {α β : Type*} (func : α → β → α) (x : List α) : ℕ → List β → List α → Option (List α)
  | _, [], xdot => some xdot
  | i, u :: us, xdot =>
    match x[i]? with
    | none => none
    | some xi => matDynamicsLoop func x (i + 1) us (xdot ++ [func xi u])

/-- `mat_dynamics`, polymath.cpp:112-126, as the list of blocks that are stacked. `x.back()` of an empty vector is undefined. -/
def matDynamics {α β : Type*} (func : α → β → α) (x : List α) (u : List β) : Option (List α) :=
  match matDynamicsLoop func x 0 u [], x.getLast? with
  | some xdot, some l => some (xdot ++ [l])
  | _, _ => none

/-- `cgl_nodes`, polymath.cpp:163-172: for one point the entry is `0 * (M_PI / 0)`, not a number. -/
noncomputable def cglNodes (n : ℕ) : Option (List ℝ) :=
  if n = 1 then none else some ((List.range n).map fun j : ℕ => Real.cos ((j : ℝ) * (Real.pi / ((n : ℝ) - 1))))

end PolyMPC.Util
