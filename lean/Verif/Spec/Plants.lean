/-
  Reference kinematics for the example plants, written without reference to the code: a tricycle in
  the plane and a kite on a sphere flying along its heading.
-/
import Mathlib.Analysis.SpecialFunctions.Trigonometric.Deriv
import Mathlib.Data.Fin.VecNotation

set_option autoImplicit false

namespace PolyMPC.Spec

/-- A tricycle with distance `wb` between the steered front wheel and the rear axle, driven at the
front wheel with speed `v` and steering angle `phi`. -/
noncomputable def tricycle (wb theta v phi : ℝ) : Fin 3 → ℝ :=
  ![v * Real.cos phi * Real.cos theta, v * Real.cos phi * Real.sin theta, v * Real.sin phi / wb]

/-- A trajectory of a controlled system: its derivative is the right-hand side at every time. -/
def Follows {n m : ℕ} (f : (Fin n → ℝ) → (Fin m → ℝ) → Fin n → ℝ) (X : ℝ → Fin n → ℝ)
    (U : ℝ → Fin m → ℝ) : Prop :=
  ∀ t i, HasDerivAt (fun s => X s i) (f (X t) (U t) i) t

/-- The pose `x` after turning the plane by `a` and shifting it by `(c, d)`. -/
noncomputable def moved (a c d : ℝ) (x : Fin 3 → ℝ) : Fin 3 → ℝ :=
  ![Real.cos a * x 0 - Real.sin a * x 1 + c, Real.sin a * x 0 + Real.cos a * x 1 + d, x 2 + a]

/-- The position on the sphere of radius `L` at elevation `theta` and azimuth `phi`. -/
noncomputable def onSphere (L theta phi : ℝ) : Fin 3 → ℝ :=
  ![L * (Real.cos theta * Real.cos phi), L * (Real.cos theta * Real.sin phi), L * Real.sin theta]

/-- The unit tangent towards the zenith. -/
noncomputable def north (theta phi : ℝ) : Fin 3 → ℝ :=
  ![-(Real.sin theta * Real.cos phi), -(Real.sin theta * Real.sin phi), Real.cos theta]

/-- The unit tangent in the direction of growing azimuth. -/
noncomputable def east (phi : ℝ) : Fin 3 → ℝ := ![-Real.sin phi, Real.cos phi, 0]

/-- The unit vector from the kite to the anchor of the tether. -/
noncomputable def down (theta phi : ℝ) : Fin 3 → ℝ :=
  ![-(Real.cos theta * Real.cos phi), -(Real.cos theta * Real.sin phi), -Real.sin theta]

/-- The flight direction of a kite with heading `gamma`. -/
noncomputable def heading (theta phi gamma : ℝ) : Fin 3 → ℝ :=
  fun i => Real.cos gamma * north theta phi i + Real.sin gamma * east phi i

/-- The speed of a kite with gliding ratio `E` in wind `(ws, 0, 0)`: wind along the heading plus
`E` times the wind that pulls on the tether. -/
noncomputable def kiteSpeed (ws E theta phi gamma : ℝ) : ℝ :=
  ws * heading theta phi gamma 0 - E * (ws * down theta phi 0)

/-- The rates of elevation and azimuth of a kite that moves along its heading with that speed. -/
noncomputable def kiteRate (L ws E theta phi gamma : ℝ) : Fin 2 → ℝ :=
  ![Real.cos gamma * kiteSpeed ws E theta phi gamma / L,
    Real.sin gamma * kiteSpeed ws E theta phi gamma / (L * Real.cos theta)]

end PolyMPC.Spec
