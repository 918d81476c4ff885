import Verif.Model.Nmpc

/-!
# `nmpf`: path-following controller on top of the symbolic transcription

Model of `src/nmpf.hpp`, with `Chebyshev` of `Model/CasCheb.lean` and the conventions of `Model/Nmpc.lean`.

The template arguments `NX`, `NU` are `nx`, `nu`. The state is augmented by the path variable and its velocity, the control by the acceleration of
the path variable: `aug nx nu S N` are the dimensions of the transcription. The assertions on sizes of the constructor (150-233) are taken to hold.

Simplifications, besides those of `Model/Nmpc.lean`. `PathFunc` may accept one argument, two arguments or both; a call with a wrong number of arguments
throws. Its result has as many entries as there are outputs. Functions with free variables (reference velocity, path parameters; 355, 358) are
accepted. The assignment of an empty matrix to an empty slice (423 without path parameters) does nothing. `reset_path_after` is always given; its default
2 pi (207) is `Opts.default`.
-/

namespace PolyMPC.Nmpf
open Ocp CasCheb GenOcp Nmpc

variable {K : Type} [Field K]

/-- Dimensions of the transcription, nmpf.hpp:294-298. -/
def aug (nx nu S N : ℕ) : Dims := ⟨nx + 2, nu + 1, 0, 0, S, N⟩

/-- The template arguments `System` and `Path`: number of outputs, dynamics, output mapping; the path called with the path variable, and with the path
variable and the path parameters, where such calls are accepted, each with its derivative by the path variable. -/
structure Sys (K : Type) where
  ny : ℕ
  f : (ℕ → K) → (ℕ → K) → ℕ → K
  out : (ℕ → K) → ℕ → K
  path1 : Option (K → ℕ → K)
  path2 : Option (K → (ℕ → K) → ℕ → K)
  grad2 : K → (ℕ → K) → ℕ → K

/-- `mpc_options`, nmpf.hpp:164-233. -/
structure Opts (K : Type) where
  Q : Option (ℕ → ℕ → K) := none
  R : Option (ℕ → ℕ → K) := none
  W : Option K := none
  scaling : Option Bool := none
  scaleX : Option (Mat K × Mat K) := none
  scaleU : Option (Mat K × Mat K) := none
  resetAfter : K
  npp : ℕ := 0
  defaults : Option (ℕ → K) := none
  flexibility : Option K := none

/-- No options, nmpf.hpp:207. -/
noncomputable def Opts.default : Opts ℝ := { resetAfter := 2 * Real.pi }

/-- The member `scale`, nmpf.hpp:165-167. -/
def Opts.scale (o : Opts K) : Bool := o.scaling.getD false

/-- The member `flexibility`, nmpf.hpp:227-233. -/
def Opts.flex (o : Opts K) : K := o.flexibility.getD (78 / 100)

/-- `Scale_X`, `invSX` after the constructor, nmpf.hpp:161, 169-175. -/
def initSX (nx : ℕ) (o : Opts K) : Mat K × Mat K := if o.scale then o.scaleX.getD (eye (nx + 2), eye (nx + 2)) else (eye (nx + 2), eye (nx + 2))

/-- `Scale_U`, `invSU` after the constructor, nmpf.hpp:162, 177-183. -/
def initSU (nu : ℕ) (o : Opts K) : Mat K × Mat K := if o.scale then o.scaleU.getD (eye (nu + 1), eye (nu + 1)) else (eye (nu + 1), eye (nu + 1))

/-- The call of `PathFunc` in `createNLP`, nmpf.hpp:329-332, 343-346. -/
def pathFn (sys : Sys K) (o : Opts K) : Option (K → (ℕ → K) → ℕ → K) := if 0 < o.npp then sys.path2 else sys.path1.map fun f θ _ => f θ

/-- `aug_dynamics`, nmpf.hpp:268-285. -/
def augF (nx nu : ℕ) (sys : Sys K) (X U : ℕ → K) : ℕ → K := fun i =>
  if i < nx then sys.f (cut nx X) (cut nu U) i else if i = nx then X (nx + 1) else if i = nx + 1 then U nu else 0

/-- The dynamics handed to the transcription, nmpf.hpp:307-318. -/
def ode (nx nu S N : ℕ) (sys : Sys K) (o : Opts K) : (Fin (aug nx nu S N).M → K) → ℕ → K := fun z =>
  if o.scale then (initSX nx o).1.app (nx + 2) (augF nx nu sys ((initSX nx o).2.app (nx + 2) (zx _ z)) ((initSU nu o).2.app (nu + 1) (zu _ z)))
  else augF nx nu sys (zx _ z) (zu _ z)

/-- `_invSX`, nmpf.hpp:334: the upper left block. -/
def block (nx : ℕ) (M : Mat K) : Mat K := ⟨nx, M.a⟩

/-- `residual`, nmpf.hpp:329-335, 343-348; `pth` is the path, `pp` the path parameters. -/
def residual (nx : ℕ) (sys : Sys K) (o : Opts K) (pth : K → (ℕ → K) → ℕ → K) (pp : ℕ → K) (X : ℕ → K) : ℕ → K := fun i =>
  if o.scale then pth ((initSX nx o).2.a nx nx * X nx) pp i - sys.out ((block nx (initSX nx o).2).app nx (cut nx X)) i
  else pth (X nx) pp i - sys.out (cut nx X) i

/-- The expression of `VelError`, nmpf.hpp:324, 375; `vel` is the entry 0 of the parameters. -/
def velRes (nx : ℕ) (o : Opts K) (vel : K) (X : ℕ → K) : K := (initSX nx o).2.a (nx + 1) (nx + 1) * (vel - X (nx + 1))

/-- `lagrange`, nmpf.hpp:336-338, 349-352; `p` are the parameters. -/
def lagrange (nx nu S N : ℕ) (sys : Sys K) (o : Opts K) (pth : K → (ℕ → K) → ℕ → K) (p : ℕ → K) : (Fin (aug nx nu S N).M → K) → K := fun z =>
  wsum sys.ny (weight o.Q) (residual nx sys o pth (fun i => p (1 + i)) (zx _ z)) +
  (if o.scale then o.W.getD 1 * velRes nx o (p 0) (zx _ z) ^ 2 else o.W.getD 1 * (p 0 - zx _ z (nx + 1)) ^ 2) +
  wsum (nu + 1) (weight o.R) (if o.scale then (initSU nu o).2.app (nu + 1) (zu _ z) else zu _ z)

/-- `mayer`, nmpf.hpp:357. -/
def mayer (nx : ℕ) (sys : Sys K) (o : Opts K) (pth : K → (ℕ → K) → ℕ → K) (p : ℕ → K) : (ℕ → K) → (ℕ → K) → K := fun x _ =>
  wsum sys.ny (weight o.Q) (residual nx sys o pth (fun i => p (1 + i)) (cut (nx + 2) x))

/-- `createNLP`, nmpf.hpp:259-397, at a point with parameters `p`: all rows of the transcription are kept (320 is commented out) and are
equations. -/
def nlp (nx nu S N : ℕ) (A : Approx K) (sys : Sys K) (o : Opts K) (tf : K) (p var : ℕ → K) : Option (Nmpc.Nlp K) :=
  let d := aug nx nu S N
  let U : ℕ → K := fun i => var (d.VARX + i)
  (pathFn sys o).map fun pth =>
    ⟨d.VARX + d.VARU, collocateCost d A (some (mayer nx sys o pth p)) (some (lagrange nx nu S N sys o pth p)) 0 tf var U fun _ => 0, d.VARX,
      collocateDynamics d A (ode nx nu S N sys o) 0 tf var U fun _ => 0⟩

/-! ### The object -/

/-- The members; `p` is `ARG["p"]`, of length `npp + 1`. -/
structure Obj (K : Type) extends Nmpc.Obj K where
  p : ℕ → K

/-- `setReferenceVelocity`, nmpf.hpp:58. -/
def setVel (nx : ℕ) (ob : Obj K) (v : K) : Option (Obj K) :=
  if nx + 1 < ob.sx.n then some { ob with p := put ob.p 0 1 fun _ => ob.sx.a (nx + 1) (nx + 1) * v } else none

/-- `setPathParameters`, nmpf.hpp:59, of a vector of length `n`: the length is that of the slice, or one. -/
def setPath (npp : ℕ) (ob : Obj K) (n : ℕ) (v : ℕ → K) : Option (Obj K) :=
  if n = npp then some { ob with p := put ob.p 1 npp v }
  else if n = 1 then some { ob with p := put ob.p 1 npp fun _ => v 0 } else none

/-- The constructor, nmpf.hpp:142-246, 414-429. Without default parameters an empty vector is assigned. -/
def construct (nx nu : ℕ) (sys : Sys K) (o : Opts K) : Option (Obj K) := do
  let _ ← pathFn sys o
  let ob : Obj K := ⟨⟨(initSX nx o).1, (initSX nx o).2, (initSU nu o).1, (initSU nu o).2, ⟨fun _ => none, fun _ => none, some fun _ => 0, none, none⟩,
    false, none, none, none⟩, fun _ => 0⟩
  let ob ← setVel nx ob 1
  match o.defaults with
  | some v => setPath o.npp ob o.npp v
  | none => setPath o.npp ob 0 fun _ => 0

/-- `NLP_X(Slice(nx, (N + 1) * (nx + 2), nx + 2)) += c`, nmpf.hpp:448, 453: the path variable at all nodes. -/
def shiftTheta (nx NN : ℕ) (c : K) (v : ℕ → K) : ℕ → K := fun i => if i < NN * (nx + 2) ∧ i % (nx + 2) = nx then v i + c else v i

section Order
variable [LinearOrder K]

/-- Reset of the path variable, nmpf.hpp:444-454: the scaled initial state and `NLP_X`; a slice of an empty `NLP_X` throws. -/
def wrap (nx NN : ℕ) (crit : K) (X0 : ℕ → K) (res : Option (Res K)) : Option ((ℕ → K) × Option (Res K)) :=
  let go (c : K) := res.map fun r => (put X0 nx 1 fun _ => X0 nx + c, some { r with x := shiftTheta nx NN c r.x })
  if crit < X0 nx then go (-crit) else if X0 nx < -crit then go crit else some (X0, res)

/-- The bounds of the initial node, nmpf.hpp:456-467, 476-487; `e` is the flexibility with its sign. -/
def pin (nx S N : ℕ) (sx : Mat K) (e : K) (X0 : ℕ → K) (old : ℕ → Option K) : ℕ → Option K :=
  let a := S * N * (nx + 2)
  let b := put old a (nx + 2) fun i => some (X0 i)
  let b := put b (a + nx) 1 fun _ => some (X0 nx + sx.a nx nx * e)
  put b (a + nx + 1) 1 fun _ => some (X0 (nx + 1) + sx.a (nx + 1) (nx + 1) * e)

/-- `ARG` as handed to the solver by `computeControl`, nmpf.hpp:437-488. -/
def solveArgs (nx nu S N : ℕ) (o : Opts K) (ob : Obj K) (x : ℕ → K) : Option (Args K) :=
  let d := aug nx nu S N
  if ob.sx.n = nx + 2 then
    let X0 := ob.sx.app (nx + 2) x
    if ob.warm then
      (wrap nx d.NN (ob.sx.a nx nx * o.resetAfter) X0 ob.res).map fun w =>
        ⟨pin nx S N ob.sx (-o.flex) w.1 ob.arg.lbx, pin nx S N ob.sx o.flex w.1 ob.arg.ubx, w.2.map Res.x, w.2.map Res.lamG, w.2.map Res.lamX⟩
    else (coldGuess d ob.arg.x0 X0).map fun g =>
      ⟨pin nx S N ob.sx (-o.flex) X0 ob.arg.lbx, pin nx S N ob.sx o.flex X0 ob.arg.ubx, g, ob.arg.lamG0, ob.arg.lamX0⟩
  else none

/-- `computeControl`, nmpf.hpp:433-515. The solver gets the arguments and the parameters. -/
def computeControl (nx nu S N : ℕ) (o : Opts K) (solver : Args K → (ℕ → K) → Res K) (ob : Obj K) (x : ℕ → K) : Option (Obj K) := do
  let a ← solveArgs nx nu S N o ob x
  let ob' ← store (aug nx nu S N) ob.toObj a (solver a ob.p)
  some { ob' with p := ob.p }

/-- The calls a user can make after construction. -/
inductive Op (K : Type) where
  | setLBX (b : ℕ → Option K)
  | setUBX (b : ℕ → Option K)
  | setLBU (b : ℕ → Option K)
  | setUBU (b : ℕ → Option K)
  | setStateScaling (s si : Mat K)
  | setControlScaling (s si : Mat K)
  | setReferenceVelocity (v : K)
  | setPathParameters (n : ℕ) (v : ℕ → K)
  | enableWarmStart
  | disableWarmStart
  | computeControl (x : ℕ → K)

/-- A call, nmpf.hpp:27-67. -/
def step (nx nu S N : ℕ) (o : Opts K) (solver : Args K → (ℕ → K) → Res K) (ob : Obj K) : Op K → Option (Obj K)
  | .setLBX b => (boxX (aug nx nu S N) ob.sx ob.arg.lbx b).map fun v => { ob with arg := { ob.arg with lbx := v } }
  | .setUBX b => (boxX (aug nx nu S N) ob.sx ob.arg.ubx b).map fun v => { ob with arg := { ob.arg with ubx := v } }
  | .setLBU b => (boxU (aug nx nu S N) ob.su ob.arg.lbx b).map fun v => { ob with arg := { ob.arg with lbx := v } }
  | .setUBU b => (boxU (aug nx nu S N) ob.su ob.arg.ubx b).map fun v => { ob with arg := { ob.arg with ubx := v } }
  | .setStateScaling s si => some { ob with sx := s, isx := si }
  | .setControlScaling s si => some { ob with su := s, isu := si }
  | .setReferenceVelocity v => setVel nx ob v
  | .setPathParameters n v => setPath o.npp ob n v
  | .enableWarmStart => some { ob with warm := true }
  | .disableWarmStart => some { ob with warm := false }
  | .computeControl x => computeControl nx nu S N o solver ob x

/-- A sequence of calls. -/
def run (nx nu S N : ℕ) (o : Opts K) (solver : Args K → (ℕ → K) → Res K) (ob : Obj K) : List (Op K) → Option (Obj K)
  | [] => some ob
  | op :: ops => (step nx nu S N o solver ob op).bind fun ob' => run nx nu S N o solver ob' ops

end Order

/-! ### Queries -/

/-- The vector whose norm `getPathError` returns, nmpf.hpp:524-527; `none` without trajectory. -/
def pathResidual (nx nu S N : ℕ) (sys : Sys K) (o : Opts K) (pth : K → (ℕ → K) → ℕ → K) (ob : Obj K) : Option (ℕ → K) :=
  ob.traj.map fun T => residual nx sys o pth (fun i => ob.p (1 + i)) (ob.sx.app (aug nx nu S N).NX (T (S * N)))

/-- `getPathError`, nmpf.hpp:519-530. -/
noncomputable def getPathError (nx nu S N : ℕ) (sys : Sys ℝ) (o : Opts ℝ) (pth : ℝ → (ℕ → ℝ) → ℕ → ℝ) (ob : Obj ℝ) : ℝ :=
  match pathResidual nx nu S N sys o pth ob with
  | none => 0
  | some r => Real.sqrt (∑ i ∈ Finset.range sys.ny, r i ^ 2)

/-- `getVelocityError`, nmpf.hpp:534-545. -/
def getVelocityError [LinearOrder K] (nx nu S N : ℕ) (o : Opts K) (ob : Obj K) : K :=
  match ob.traj with
  | none => 0
  | some T => |velRes nx o (ob.p 0) (ob.sx.app (aug nx nu S N).NX (T (S * N)))|

/-- `getVirtState`, nmpf.hpp:549-557: row 13. -/
def getVirtState (nx S N : ℕ) (ob : Obj K) : Option K :=
  match ob.traj with
  | none => some 0
  | some T => if 13 < nx + 2 then some (T (S * N) 13) else none

/-- `getCost`, nmpf.hpp:561-565: the objective at `ARG["x0"]`; an empty argument counts as zero. -/
def getCost (nx nu S N : ℕ) (A : Approx K) (sys : Sys K) (o : Opts K) (tf : K) (ob : Obj K) : Option K :=
  (nlp nx nu S N A sys o tf ob.p (ob.arg.x0.getD fun _ => 0)).map Nmpc.Nlp.f

/-! ### The closest point on the path -/

/-- The loop of `findClosestPointOnPath`, nmpf.hpp:591-600. `r`, `g` are residual and gradient, `orth` is the norm of `orthogonality`, `k` counts the
iterations that are left. The result `none` is NaN: with a zero gradient the step is 0/0, and the loop ends because the orthogonality is zero. -/
def closestLoop [LinearOrder K] (ny : ℕ) (r g : K → ℕ → K) : ℕ → K → K → Option K
  | 0, _, θ => some θ
  | k + 1, orth, θ =>
    if 1 / 10 ≤ orth then
      let dot := ∑ i ∈ Finset.range ny, r θ i * g θ i
      let gg := ∑ i ∈ Finset.range ny, g θ i * g θ i
      if gg = 0 then none else closestLoop ny r g k |dot| (θ + -dot / gg)
    else some θ

/-- `findClosestPointOnPath`, nmpf.hpp:570-602; the outer `none` is an exception: the gradient always calls the path with two arguments (580). At most
11 iterations. -/
def findClosest [LinearOrder K] (sys : Sys K) (o : Opts K) (ob : Obj K) (pos : ℕ → K) (guess : K) : Option (Option K) := do
  let pth ← pathFn sys o
  let _ ← sys.path2
  let pp : ℕ → K := fun i => if i < o.npp then ob.p (1 + i) else 0
  some (closestLoop sys.ny (fun θ i => pth θ pp i - pos i) (fun θ i => sys.grad2 θ pp i) 11 1 guess)

end PolyMPC.Nmpf
