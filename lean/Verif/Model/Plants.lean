/-
  The two example plants shipped as libraries: `MobileRobot` (examples/mobile_robot.{hpp,cpp}) and
  `SimpleKinematicKite` (examples/kite.{h,cpp}).  They are the system classes handed to `nmpc` and
  `nmpf` in the examples.

  The symbolic CasADi expressions are modelled by the real functions they denote; `double`
  arithmetic inside them is exact.  Matrices are filled by the same sequence of writes as in the
  code, so that a later write to the same entry replaces an earlier one.
-/
import Mathlib.Analysis.SpecialFunctions.Trigonometric.Deriv
import Mathlib.LinearAlgebra.Matrix.Notation
import Mathlib.Data.Matrix.Mul

set_option autoImplicit false

namespace PolyMPC.Plants

open Matrix

/-- A plant object: the two `casadi::Function` members that `getDynamics` and `getOutputMapping`
return (mobile_robot.hpp:32-41, kite.h:32-41).  `none` is a default-constructed `casadi::Function`,
the null function, on which any call raises an exception. -/
structure Plant (n m k : ℕ) where
  numDynamics : Option ((Fin n → ℝ) → (Fin m → ℝ) → Fin n → ℝ)
  outputMap : Option ((Fin n → ℝ) → Fin k → ℝ)

/-- `MobileRobotProperties` (mobile_robot.hpp:20-25). -/
structure RobotProps where
  wheelBase : ℝ

/-- The right-hand side written in both constructors of `MobileRobot`
(mobile_robot.cpp:26-27, 45-46): `state = (x, y, theta)`, `control = (v, phi)`, `L = 1.0`. -/
noncomputable def robotDynamics (x : Fin 3 → ℝ) (u : Fin 2 → ℝ) : Fin 3 → ℝ :=
  let L : ℝ := 1
  ![u 0 * Real.cos (x 2) * Real.cos (u 1), u 0 * Real.sin (x 2) * Real.cos (u 1),
    u 0 * Real.sin (u 1) / L]

/-- `MobileRobot::MobileRobot(const MobileRobotProperties &props)` (mobile_robot.cpp:14-32).
`props` is not read. -/
noncomputable def robotWith (_props : RobotProps) : Plant 3 2 3 :=
  { numDynamics := some robotDynamics, outputMap := some id }

/-- `MobileRobot::MobileRobot()` (mobile_robot.cpp:34-51). -/
noncomputable def robotDefault : Plant 3 2 3 :=
  { numDynamics := some robotDynamics, outputMap := some id }

/-- `SimpleKinematicKiteProperties` (kite.h:19-24). -/
structure KiteProps where
  tetherLength : ℝ
  windSpeed : ℝ
  glidingRatio : ℝ

/-- `M(i, j) = v` on a CasADi matrix. -/
def put {r c : ℕ} (A : Matrix (Fin r) (Fin c) ℝ) (i : Fin r) (j : Fin c) (v : ℝ) :
    Matrix (Fin r) (Fin c) ℝ :=
  fun a b => if a = i ∧ b = j then v else A a b

/-- `R_GN` after the nine writes of kite.cpp:35-38 (and 79-82).  The third row writes entry
`(2, 2)` twice and never writes `(2, 0)`. -/
noncomputable def rGN (theta phi : ℝ) : Matrix (Fin 3) (Fin 3) ℝ :=
  let R0 : Matrix (Fin 3) (Fin 3) ℝ := 0
  let R1 := put R0 0 0 (-Real.sin theta * Real.cos phi)
  let R2 := put R1 0 1 (-Real.sin theta)
  let R3 := put R2 0 2 (-Real.cos theta * Real.cos phi)
  let R4 := put R3 1 0 (-Real.sin theta * Real.sin phi)
  let R5 := put R4 1 1 (Real.cos theta)
  let R6 := put R5 1 2 (-Real.cos theta * Real.sin phi)
  let R7 := put R6 2 2 (Real.cos theta)
  let R8 := put R7 2 1 0
  put R8 2 2 (-Real.sin theta)

/-- `Rb_NK` (kite.cpp:40, 42-43). -/
noncomputable def rbNK (gamma : ℝ) : Matrix (Fin 2) (Fin 2) ℝ :=
  !![Real.cos gamma, -Real.sin gamma; Real.sin gamma, Real.cos gamma]

/-- `R_NK`: the identity with `Rb_NK` written into the upper left block (kite.cpp:41, 44). -/
noncomputable def rNK (gamma : ℝ) : Matrix (Fin 3) (Fin 3) ℝ :=
  let R1 := put (1 : Matrix (Fin 3) (Fin 3) ℝ) 0 0 (rbNK gamma 0 0)
  let R2 := put R1 0 1 (rbNK gamma 0 1)
  let R3 := put R2 1 0 (rbNK gamma 1 0)
  put R3 1 1 (rbNK gamma 1 1)

/-- `M = diag(1/L, 1/L * cos(theta))` (kite.cpp:32). -/
noncomputable def scaleM (L theta : ℝ) : Matrix (Fin 2) (Fin 2) ℝ :=
  !![1 / L, 0; 0, 1 / L * Real.cos theta]

/-- `EM` (kite.cpp:46-47). -/
def glideE (E : ℝ) : Matrix (Fin 2) (Fin 3) ℝ :=
  put (put (0 : Matrix (Fin 2) (Fin 3) ℝ) 0 0 1) 0 2 (-E)

/-- The right-hand side built in both constructors of `SimpleKinematicKite` (kite.cpp:24-54, 66-98):
`state = (theta, phi, gamma)`, `control = (u_gamma)`. -/
noncomputable def kiteDynamics (p : KiteProps) (x : Fin 3 → ℝ) (u : Fin 1 → ℝ) : Fin 3 → ℝ :=
  let L := p.tetherLength
  let E := p.glidingRatio
  let ws := p.windSpeed
  let z : ℝ := 0
  let vw : Fin 3 → ℝ := ![ws, 0, 0]
  let MRbNKE := scaleM L (x 0) * rbNK (x 2) * glideE E
  let MRbNKERNR := MRbNKE * (rNK (x 2))ᵀ * (rGN (x 0) (x 1))ᵀ
  let qdot := MRbNKERNR *ᵥ vw - rbNK (x 2) *ᵥ ![E * z, 0]
  ![qdot 0, qdot 1, u 0]

/-- `SimpleKinematicKite::SimpleKinematicKite(const SimpleKinematicKiteProperties &)`
(kite.cpp:14-56).  `OutputMap` is not assigned. -/
noncomputable def kiteWith (p : KiteProps) : Plant 3 1 2 :=
  { numDynamics := some (kiteDynamics p), outputMap := none }

/-- `SimpleKinematicKite::SimpleKinematicKite()` (kite.cpp:58-103): `L = 5`, `E = 5`, `ws = 3`. -/
noncomputable def kiteDefault : Plant 3 1 2 :=
  { numDynamics := some (kiteDynamics { tetherLength := 5, windSpeed := 3, glidingRatio := 5 })
    outputMap := some fun x =>
      let H := put (put (0 : Matrix (Fin 2) (Fin 3) ℝ) 0 0 1) 1 1 1
      H *ᵥ x }

end PolyMPC.Plants
