import Verif.Model.GenericOcp

/-!
# `nmpc`: tracking controller on top of the symbolic transcription

Model of `src/nmpc.hpp`, with `Chebyshev` of `Model/CasCheb.lean`.

As there, a CasADi expression is its value at given values of the symbols. `none` is a thrown exception. The template arguments `NX`,
`NU`, `NumSegments`, `PolyOrder` are the fields `NX`, `NU`, `S`, `N` of `Dims`, with `NP = NG = 0`. The assertions on sizes of the
constructor (152-210) are taken to hold.

Simplifications. A scaling matrix comes with its inverse, the answer of `DM::solve`. A bound is an element of the field or absent
(`none`: infinite); a row of `mtimes(Scale, bound)` with an infinite bound under a nonzero coefficient is infinite, as if the coefficient were
positive. The Ipopt solver object is a function of its arguments; an empty argument is absent. Printing, statistics and `updateParams` are left
out, and so are the members that are written but not read (`m_Jacobian`, `DynamicConstraints`, `PerformanceIndex`).
-/

namespace PolyMPC.Nmpc
open Ocp CasCheb GenOcp

variable {K : Type} [Field K]

/-! ### Matrices -/

/-- A square matrix and its size. -/
structure Mat (K : Type) where
  n : ℕ
  a : ℕ → ℕ → K

/-- `eye(n)`. -/
def eye (n : ℕ) : Mat K := ⟨n, fun i j => if i = j then 1 else 0⟩

/-- `mtimes(A, v)` is a vector of the length `m` of `v`: the sizes agree or `A` is a scalar. -/
def Mat.fits (A : Mat K) (m : ℕ) : Bool := A.n == m || A.n == 1

/-- `mtimes(A, v)` for a vector of length `m`. -/
def Mat.app (A : Mat K) (m : ℕ) (v : ℕ → K) : ℕ → K := fun i =>
  if i < m then if A.n = m then ∑ j ∈ Finset.range m, A.a i j * v j else A.a 0 0 * v i else 0

/-- Is some entry of the row infinite? -/
def rowInf [DecidableEq K] (A : Mat K) (m : ℕ) (b : ℕ → Option K) (i : ℕ) : Bool :=
  (List.range m).any fun j => A.a (if A.n = m then i else 0) (if A.n = m then j else 0) ≠ 0 && (A.n = m || i = j) && (b j).isNone

/-- `mtimes(A, b)` for a vector of bounds. -/
def Mat.bnd [DecidableEq K] (A : Mat K) (m : ℕ) (b : ℕ → Option K) : ℕ → Option K := fun i =>
  if rowInf A m b i then none else some (A.app m (fun j => (b j).getD 0) i)

/-! ### The nonlinear program -/

/-- The template argument `System`: number of outputs, dynamics, output mapping. -/
structure Sys (K : Type) where
  ny : ℕ
  f : (ℕ → K) → (ℕ → K) → ℕ → K
  out : (ℕ → K) → ℕ → K

/-- `mpc_options`, nmpc.hpp:171-212. A scaling option is the matrix with its inverse. -/
structure Opts (K : Type) where
  Q : Option (ℕ → ℕ → K) := none
  R : Option (ℕ → ℕ → K) := none
  P : Option (ℕ → ℕ → K) := none
  scaling : Option Bool := none
  scaleX : Option (Mat K × Mat K) := none
  scaleU : Option (Mat K × Mat K) := none

/-- The member `scale`, nmpc.hpp:194-196. -/
def Opts.scale (o : Opts K) : Bool := o.scaling.getD false

/-- A weight: the option or the identity, nmpc.hpp:161-163, 171-190. -/
def weight (w : Option (ℕ → ℕ → K)) : ℕ → ℕ → K := w.getD fun i j => if i = j then 1 else 0

/-- `Scale_X` and `invSX` after the constructor, nmpc.hpp:165-166, 198-204. The default has as many rows as there are outputs. -/
def initSX (sys : Sys K) (o : Opts K) : Mat K × Mat K := if o.scale then o.scaleX.getD (eye sys.ny, eye sys.ny) else (eye sys.ny, eye sys.ny)

/-- `Scale_U` and `invSU` after the constructor, nmpc.hpp:168-169, 206-212. -/
def initSU (d : Dims) (o : Opts K) : Mat K × Mat K := if o.scale then o.scaleU.getD (eye d.NU, eye d.NU) else (eye d.NU, eye d.NU)

/-- `sum1(mtimes(W, pow(r, 2)))`, e.g. nmpc.hpp:289. -/
def wsum (n : ℕ) (W : ℕ → ℕ → K) (r : ℕ → K) : K := ∑ i ∈ Finset.range n, ∑ j ∈ Finset.range n, W i j * r j ^ 2

/-- The dynamics handed to the transcription, nmpc.hpp:268-279. -/
def ode (d : Dims) (sys : Sys K) (o : Opts K) : (Fin d.M → K) → ℕ → K := fun z =>
  if o.scale then (initSX sys o).1.app d.NX (sys.f ((initSX sys o).2.app d.NX (zx d z)) ((initSU d o).2.app d.NU (zu d z)))
  else sys.f (zx d z) (zu d z)

/-- `residual`, nmpc.hpp:287-288, 294. -/
def residual (d : Dims) (sys : Sys K) (o : Opts K) (ref : ℕ → K) (x : ℕ → K) : ℕ → K := fun i =>
  ref i - sys.out (if o.scale then (initSX sys o).2.app d.NX x else x) i

/-- `lagrange`, nmpc.hpp:289-290, 295-296. -/
def lagrange (d : Dims) (sys : Sys K) (o : Opts K) (ref : ℕ → K) : (Fin d.M → K) → K := fun z =>
  wsum sys.ny (weight o.Q) (residual d sys o ref (zx d z)) + wsum d.NU (weight o.R) (zu d z)

/-- `mayer`, nmpc.hpp:304-306. -/
def mayer (d : Dims) (sys : Sys K) (o : Opts K) (ref : ℕ → K) : (ℕ → K) → (ℕ → K) → K := fun x _ =>
  wsum sys.ny (weight o.P) (residual d sys o ref (cut d.NX x))

/-- The nonlinear program at a point. -/
structure Nlp (K : Type) where
  nVar : ℕ
  f : K
  n : ℕ
  g : ℕ → K

/-- The sizes with which `createNLP` does not throw: the products of the scaling matrices with states and controls (270-271, 322-327) and the
slice of `invSX` (287). -/
def sizesOk (d : Dims) (sys : Sys K) (o : Opts K) : Bool :=
  (initSX sys o).1.fits d.NX && (initSU d o).1.fits d.NU &&
  (!o.scale || ((initSX sys o).2.fits d.NX && (initSU d o).2.fits d.NU && decide (d.NX ≤ (initSX sys o).2.n)))

/-- `createNLP`, nmpc.hpp:238-351: the variables are states and controls, all rows are equations; the last `NX` rows of the transcription are cut off
(281). -/
def nlp (d : Dims) (A : Approx K) (sys : Sys K) (o : Opts K) (ref : ℕ → K) (tf : K) (var : ℕ → K) : Option (Nlp K) :=
  if sizesOk d sys o then
    let U : ℕ → K := fun i => var (d.VARX + i)
    some ⟨d.VARX + d.VARU, collocateCost d A (some (mayer d sys o ref)) (some (lagrange d sys o ref)) 0 tf var U fun _ => 0, d.VARX - d.NX,
      collocateDynamics d A (ode d sys o) 0 tf var U fun _ => 0⟩
  else none

/-! ### The object -/

/-- Arguments of the solver, `ARG` without `lbg`, `ubg`, which stay zero. -/
structure Args (K : Type) where
  lbx : ℕ → Option K
  ubx : ℕ → Option K
  x0 : Option (ℕ → K)
  lamG0 : Option (ℕ → K)
  lamX0 : Option (ℕ → K)

/-- `res` of nmpc.hpp:396-399. -/
structure Res (K : Type) where
  x : ℕ → K
  lamX : ℕ → K
  lamG : ℕ → K

/-- The members that calls after construction read or write. `res` are `NLP_X`, `NLP_LAM_X`, `NLP_LAM_G`, empty at first; a column of `traj`, `ctrl`
is a node. -/
structure Obj (K : Type) where
  sx : Mat K
  isx : Mat K
  su : Mat K
  isu : Mat K
  arg : Args K
  warm : Bool
  res : Option (Res K)
  traj : Option (ℕ → ℕ → K)
  ctrl : Option (ℕ → ℕ → K)

/-- The constructor, nmpc.hpp:143-225, 353-363. -/
def construct (d : Dims) (sys : Sys K) (o : Opts K) : Option (Obj K) :=
  if sizesOk d sys o then
    some ⟨(initSX sys o).1, (initSX sys o).2, (initSU d o).1, (initSU d o).2, ⟨fun _ => none, fun _ => none, some fun _ => 0, none, none⟩, false, none, none,
      none⟩
  else none

/-- Assignment to the `n` entries from `a` on. -/
def put {T : Type} (v : ℕ → T) (a n : ℕ) (w : ℕ → T) : ℕ → T := fun i => if a ≤ i ∧ i < a + n then w (i - a) else v i

/-- `repmat(v, NN, 1)` of a vector of length `n`. -/
def rep {T : Type} (n : ℕ) (v : ℕ → T) : ℕ → T := fun i => v (i % n)

/-- The calls a user can make after construction. -/
inductive Op (K : Type) where
  | setLBX (b : ℕ → Option K)
  | setUBX (b : ℕ → Option K)
  | setLBU (b : ℕ → Option K)
  | setUBU (b : ℕ → Option K)
  | setStateScaling (s si : Mat K)
  | setControlScaling (s si : Mat K)
  | enableWarmStart
  | disableWarmStart
  | computeControl (x : ℕ → K)

/-- `setLBX`, `setUBX`, nmpc.hpp:47-57: the new contents of `ARG["lbx"]` or `ARG["ubx"]`. -/
def boxX [DecidableEq K] (d : Dims) (s : Mat K) (old b : ℕ → Option K) : Option (ℕ → Option K) :=
  if s.fits d.NX then some (put old 0 (d.NX * d.NN) (rep d.NX (s.bnd d.NX b))) else none

/-- `setLBU`, `setUBU`, nmpc.hpp:59-70. -/
def boxU [DecidableEq K] (d : Dims) (s : Mat K) (old b : ℕ → Option K) : Option (ℕ → Option K) :=
  if s.fits d.NU then some (put old (d.NX * d.NN) (d.NU * d.NN) (rep d.NU (s.bnd d.NU b))) else none

/-- The guess of a cold start, nmpc.hpp:388: the states are filled with the initial state; an empty `ARG["x0"]` has no such slice. -/
def coldGuess (d : Dims) (old : Option (ℕ → K)) (X0 : ℕ → K) : Option (Option (ℕ → K)) :=
  old.map fun v => some (put v 0 (d.NN * d.NX) (rep d.NX X0))

/-- `ARG` as handed to the solver by `computeControl`, nmpc.hpp:372-393. -/
def solveArgs (d : Dims) (ob : Obj K) (x : ℕ → K) : Option (Args K) :=
  if ob.sx.fits d.NX then
    let X0 := ob.sx.app d.NX x
    let lbx := put ob.arg.lbx (d.S * d.N * d.NX) d.NX fun i => some (X0 i)
    let ubx := put ob.arg.ubx (d.S * d.N * d.NX) d.NX fun i => some (X0 i)
    if ob.warm then some ⟨lbx, ubx, ob.res.map Res.x, ob.res.map Res.lamG, ob.res.map Res.lamX⟩
    else (coldGuess d ob.arg.x0 X0).map fun g => ⟨lbx, ubx, g, ob.arg.lamG0, ob.arg.lamX0⟩
  else none

/-- The rest of `computeControl`, nmpc.hpp:396-424. -/
def store (d : Dims) (ob : Obj K) (a : Args K) (r : Res K) : Option (Obj K) :=
  if ob.isx.fits d.NX && ob.isu.fits d.NU then
    some { ob with arg := a, warm := true, res := some r,
                   traj := some fun k => ob.isx.app d.NX fun i => r.x (k * d.NX + i),
                   ctrl := some fun k => ob.isu.app d.NU fun i => r.x (d.NN * d.NX + k * d.NU + i) }
  else none

/-- `computeControl`, nmpc.hpp:367-425. -/
def computeControl (d : Dims) (solver : Args K → Res K) (ob : Obj K) (x : ℕ → K) : Option (Obj K) := do
  let a ← solveArgs d ob x
  store d ob a (solver a)

/-- A call, nmpc.hpp:47-87. -/
def step [DecidableEq K] (d : Dims) (solver : Args K → Res K) (ob : Obj K) : Op K → Option (Obj K)
  | .setLBX b => (boxX d ob.sx ob.arg.lbx b).map fun v => { ob with arg := { ob.arg with lbx := v } }
  | .setUBX b => (boxX d ob.sx ob.arg.ubx b).map fun v => { ob with arg := { ob.arg with ubx := v } }
  | .setLBU b => (boxU d ob.su ob.arg.lbx b).map fun v => { ob with arg := { ob.arg with lbx := v } }
  | .setUBU b => (boxU d ob.su ob.arg.ubx b).map fun v => { ob with arg := { ob.arg with ubx := v } }
  | .setStateScaling s si => some { ob with sx := s, isx := si }
  | .setControlScaling s si => some { ob with su := s, isu := si }
  | .enableWarmStart => some { ob with warm := true }
  | .disableWarmStart => some { ob with warm := false }
  | .computeControl x => computeControl d solver ob x

/-- A sequence of calls. -/
def run [DecidableEq K] (d : Dims) (solver : Args K → Res K) (ob : Obj K) : List (Op K) → Option (Obj K)
  | [] => some ob
  | op :: ops => (step d solver ob op).bind fun ob' => run d solver ob' ops

/-- The vector whose norm `getPathError` returns, nmpc.hpp:433-436; `none` if there is no trajectory. The last column is the initial time. -/
def pathResidual (d : Dims) (sys : Sys K) (o : Opts K) (ref : ℕ → K) (ob : Obj K) : Option (ℕ → K) :=
  ob.traj.map fun T => residual d sys o ref (ob.sx.app d.NX (T (d.S * d.N)))

/-- `getPathError`, nmpc.hpp:429-440. -/
noncomputable def getPathError (d : Dims) (sys : Sys ℝ) (o : Opts ℝ) (ref : ℕ → ℝ) (ob : Obj ℝ) : ℝ :=
  match pathResidual d sys o ref ob with
  | none => 0
  | some r => Real.sqrt (∑ i ∈ Finset.range sys.ny, r i ^ 2)

end PolyMPC.Nmpc
