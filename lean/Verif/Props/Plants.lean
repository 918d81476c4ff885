/-
  C230: what the example plants `MobileRobot` and `SimpleKinematicKite` compute.
-/
import Verif.Model.Plants
import Verif.Spec.Plants
import Mathlib.Analysis.Calculus.MeanValue
import Mathlib.Analysis.Real.Pi.Bounds
import Mathlib.Tactic.Ring
import Mathlib.Tactic.Linarith
import Mathlib.Tactic.NormNum
import Mathlib.Tactic.FieldSimp
import Mathlib.Tactic.LinearCombination

set_option autoImplicit false

namespace PolyMPC.Plants

open Matrix Spec

/-! ### The mobile robot -/

/-- The dynamics of `MobileRobot` are those of a tricycle with wheel base one, whichever
constructor is used and whatever wheel base the properties carry. -/
theorem robot_is_unit_tricycle (props : RobotProps) :
    ∃ f, (robotWith props).numDynamics = some f ∧ robotDefault.numDynamics = some f ∧
      ∀ x u, f x u = tricycle 1 (x 2) (u 0) (u 1) := by
  refine ⟨robotDynamics, rfl, rfl, fun x u => ?_⟩
  funext i
  fin_cases i <;> simp [robotDynamics, tricycle] <;> ring

/-- The wheel base given by the user is respected only if it is one: for every other non-zero wheel
base the yaw rate is wrong at every state as soon as the robot moves with its wheel turned. -/
theorem robot_wheel_base_ignored (props : RobotProps) (h0 : props.wheelBase ≠ 0) :
    ∃ f, (robotWith props).numDynamics = some f ∧
      ((∀ x u, f x u = tricycle props.wheelBase (x 2) (u 0) (u 1)) ↔ props.wheelBase = 1) ∧
      (props.wheelBase ≠ 1 → ∀ x u, u 0 * Real.sin (u 1) ≠ 0 →
        f x u 2 ≠ tricycle props.wheelBase (x 2) (u 0) (u 1) 2) := by
  have key : props.wheelBase ≠ 1 → ∀ (x : Fin 3 → ℝ) (u : Fin 2 → ℝ),
      u 0 * Real.sin (u 1) ≠ 0 →
        robotDynamics x u 2 ≠ tricycle props.wheelBase (x 2) (u 0) (u 1) 2 := by
    intro h1 x u hu h
    simp only [robotDynamics, tricycle, Matrix.cons_val] at h
    rw [div_one, eq_div_iff h0] at h
    exact h1 (mul_left_cancel₀ hu (by rw [mul_one]; exact h))
  refine ⟨robotDynamics, rfl, ⟨fun h => ?_, fun h x u => ?_⟩, key⟩
  · by_contra h1
    refine key h1 0 ![1, Real.pi / 2] (by simp) ?_
    rw [h]
  · rw [h]
    funext i
    fin_cases i <;> simp [robotDynamics, tricycle] <;> ring

example : ∃ f, (robotWith ⟨2⟩).numDynamics = some f ∧
    f 0 ![1, Real.pi / 2] 2 = 1 ∧ tricycle 2 0 1 (Real.pi / 2) 2 = 1 / 2 := by
  refine ⟨robotDynamics, rfl, ?_, ?_⟩ <;> simp [robotDynamics, tricycle]

/-- The output map of the robot returns the state. -/
theorem robot_output (props : RobotProps) :
    ∃ g, (robotWith props).outputMap = some g ∧ robotDefault.outputMap = some g ∧
      ∀ x, g x = x := ⟨id, rfl, rfl, fun _ => rfl⟩

/-- The robot never slips sideways, and its three velocities share the commanded speed. -/
theorem robot_no_slip (x : Fin 3 → ℝ) (u : Fin 2 → ℝ) :
    robotDynamics x u 0 * Real.sin (x 2) - robotDynamics x u 1 * Real.cos (x 2) = 0 ∧
    robotDynamics x u 0 ^ 2 + robotDynamics x u 1 ^ 2 + robotDynamics x u 2 ^ 2 = u 0 ^ 2 := by
  simp only [robotDynamics, Matrix.cons_val]
  constructor
  · ring
  · have h1 := Real.sin_sq_add_cos_sq (x 2)
    have h2 := Real.sin_sq_add_cos_sq (u 1)
    linear_combination (u 0 ^ 2 * Real.cos (u 1) ^ 2) * h1 + u 0 ^ 2 * h2

/-- Turning and shifting the plane turns trajectories into trajectories with the same controls. -/
theorem robot_moved (X : ℝ → Fin 3 → ℝ) (U : ℝ → Fin 2 → ℝ) (a c d : ℝ)
    (h : Follows robotDynamics X U) :
    Follows robotDynamics (fun t => moved a c d (X t)) U := by
  intro t i
  have h0 := h t 0
  have h1 := h t 1
  have h2 := h t 2
  fin_cases i
  · have := ((h0.const_mul (Real.cos a)).sub (h1.const_mul (Real.sin a))).add_const c
    refine this.congr_deriv ?_
    simp only [robotDynamics, moved, Matrix.cons_val, Fin.zero_eta]
    rw [Real.cos_add]
    ring
  · have := ((h0.const_mul (Real.sin a)).add (h1.const_mul (Real.cos a))).add_const d
    refine this.congr_deriv ?_
    simp only [robotDynamics, moved, Matrix.cons_val, Fin.mk_one]
    rw [Real.sin_add]
    ring
  · have := h2.add_const a
    refine this.congr_deriv ?_
    simp only [robotDynamics, moved, Matrix.cons_val, Fin.reduceFinMk]

/-- With the speed bounded by `V` the robot gets no further than `V |t - s|` in any direction, and
turns by at most that angle. -/
theorem robot_reach (X : ℝ → Fin 3 → ℝ) (U : ℝ → Fin 2 → ℝ) (V : ℝ)
    (h : Follows robotDynamics X U) (hV : ∀ t, |U t 0| ≤ V) (s t : ℝ) :
    (X t 0 - X s 0) ^ 2 + (X t 1 - X s 1) ^ 2 ≤ (V * |t - s|) ^ 2 ∧
      |X t 2 - X s 2| ≤ V * |t - s| := by
  have hV0 : 0 ≤ V := le_trans (abs_nonneg _) (hV 0)
  have lip : ∀ (g : ℝ → ℝ) (g' : ℝ → ℝ), (∀ r, HasDerivAt g (g' r) r) → (∀ r, |g' r| ≤ V) →
      |g t - g s| ≤ V * |t - s| := by
    intro g g' hg hb
    have := Convex.norm_image_sub_le_of_norm_hasDerivWithin_le (f := g) (f' := g') (C := V)
      (s := Set.univ) (x := s) (y := t) (fun r _ => (hg r).hasDerivWithinAt)
      (fun r _ => by rw [Real.norm_eq_abs]; exact hb r) convex_univ trivial trivial
    simpa [Real.norm_eq_abs] using this
  have dir : ∀ a : ℝ, |Real.cos a * (X t 0 - X s 0) + Real.sin a * (X t 1 - X s 1)|
      ≤ V * |t - s| := by
    intro a
    have := lip (fun r => Real.cos a * X r 0 + Real.sin a * X r 1) _
      (fun r => ((h r 0).const_mul (Real.cos a)).add ((h r 1).const_mul (Real.sin a))) ?_
    · refine le_of_eq_of_le ?_ this
      congr 1
      ring
    · intro r
      refine le_trans ?_ (hV r)
      · have e : Real.cos a * robotDynamics (X r) (U r) 0 + Real.sin a * robotDynamics (X r) (U r) 1
            = U r 0 * (Real.cos (U r 1) * Real.cos (X r 2 - a)) := by
          simp only [robotDynamics, Matrix.cons_val]
          rw [Real.cos_sub]
          ring
        rw [e, abs_mul, abs_mul]
        have b1 := Real.abs_cos_le_one (U r 1)
        have b2 := Real.abs_cos_le_one (X r 2 - a)
        have : |Real.cos (U r 1)| * |Real.cos (X r 2 - a)| ≤ 1 :=
          mul_le_one₀ b1 (abs_nonneg _) b2
        calc |U r 0| * (|Real.cos (U r 1)| * |Real.cos (X r 2 - a)|)
            ≤ |U r 0| * 1 := mul_le_mul_of_nonneg_left this (abs_nonneg _)
          _ = |U r 0| := mul_one _
  constructor
  · set p := X t 0 - X s 0 with hp
    set q := X t 1 - X s 1 with hq
    have hz : p ^ 2 + q ^ 2 = ‖(⟨p, q⟩ : ℂ)‖ ^ 2 := by
      rw [← Complex.normSq_eq_norm_sq, Complex.normSq_mk]
      ring
    have h1 := Complex.norm_mul_cos_arg (⟨p, q⟩ : ℂ)
    have h2 := Complex.norm_mul_sin_arg (⟨p, q⟩ : ℂ)
    have h3 := dir (Complex.arg ⟨p, q⟩)
    set r := ‖(⟨p, q⟩ : ℂ)‖ with hr
    set a := Complex.arg (⟨p, q⟩ : ℂ) with ha
    have h1' : r * Real.cos a = p := h1
    have h2' : r * Real.sin a = q := h2
    have h4 : Real.cos a * p + Real.sin a * q = r := by
      rw [← h1', ← h2']
      have := Real.sin_sq_add_cos_sq a
      linear_combination r * this
    rw [h4] at h3
    rw [hz]
    have hr0 : 0 ≤ r := norm_nonneg _
    rw [abs_of_nonneg hr0] at h3
    exact pow_le_pow_left₀ hr0 h3 2
  · refine lip (fun r => X r 2) _ (fun r => h r 2) fun r => ?_
    simp only [robotDynamics, Matrix.cons_val]
    rw [div_one, abs_mul]
    calc |U r 0| * |Real.sin (U r 1)| ≤ |U r 0| * 1 :=
          mul_le_mul_of_nonneg_left (Real.abs_sin_le_one _) (abs_nonneg _)
      _ = |U r 0| := mul_one _
      _ ≤ V := hV r

/-- Driving straight ahead at speed `2` is a trajectory, and the bound of `robot_reach` is attained
along it. -/
example : Follows robotDynamics (fun t => ![2 * t, 0, 0]) (fun _ => ![2, 0]) ∧
    (∀ _ : ℝ, |(![2, 0] : Fin 2 → ℝ) 0| ≤ 2) := by
  refine ⟨fun t i => ?_, fun _ => by simp⟩
  fin_cases i
  · have := (hasDerivAt_id t).const_mul (2 : ℝ)
    simpa [robotDynamics] using this
  · simpa [robotDynamics] using hasDerivAt_const t (0 : ℝ)
  · simpa [robotDynamics] using hasDerivAt_const t (0 : ℝ)

/-! ### The kite -/

/-- The speed used by the code: as `kiteSpeed`, but with the elevation in place of the azimuth in
the component of the wind towards the east. -/
private noncomputable def codeSpeed (ws E theta phi gamma : ℝ) : ℝ :=
  ws * (Real.cos gamma * -(Real.sin theta * Real.cos phi) + Real.sin gamma * -Real.sin theta)
    - E * (ws * -(Real.cos theta * Real.cos phi))

private theorem rGN_eq (theta phi : ℝ) : rGN theta phi =
    !![-(Real.sin theta * Real.cos phi), -Real.sin theta, -(Real.cos theta * Real.cos phi);
       -(Real.sin theta * Real.sin phi), Real.cos theta, -(Real.cos theta * Real.sin phi);
       0, 0, -Real.sin theta] := by
  ext i j
  fin_cases i <;> fin_cases j <;> simp [rGN, put]

private theorem rNK_eq (gamma : ℝ) : rNK gamma =
    !![Real.cos gamma, -Real.sin gamma, 0; Real.sin gamma, Real.cos gamma, 0; 0, 0, 1] := by
  ext i j
  fin_cases i <;> fin_cases j <;> simp [rNK, rbNK, put]

private theorem glideE_eq (E : ℝ) : glideE E = !![1, 0, -E; 0, 0, 0] := by
  ext i j
  fin_cases i <;> fin_cases j <;> simp [glideE, put]

private theorem kite_eq (p : KiteProps) (x : Fin 3 → ℝ) (u : Fin 1 → ℝ) :
    kiteDynamics p x u =
      ![Real.cos (x 2) * codeSpeed p.windSpeed p.glidingRatio (x 0) (x 1) (x 2) / p.tetherLength,
        Real.cos (x 0) * Real.sin (x 2)
          * codeSpeed p.windSpeed p.glidingRatio (x 0) (x 1) (x 2) / p.tetherLength,
        u 0] := by
  have h : ∀ (A : Matrix (Fin 2) (Fin 3) ℝ) (a b c : ℝ), A *ᵥ ![a, b, c] =
      ![A 0 0 * a + A 0 1 * b + A 0 2 * c, A 1 0 * a + A 1 1 * b + A 1 2 * c] := by
    intro A a b c
    funext i
    fin_cases i <;> simp [Matrix.mulVec, dotProduct, Fin.sum_univ_three]
  unfold kiteDynamics
  dsimp only
  rw [rGN_eq, rNK_eq, glideE_eq, h]
  funext i
  fin_cases i
  · simp [codeSpeed, scaleM, rbNK, Matrix.mul_apply, Fin.sum_univ_succ, Matrix.vecMul, dotProduct]
    ring
  · simp [codeSpeed, scaleM, rbNK, Matrix.mul_apply, Fin.sum_univ_succ, Matrix.vecMul, dotProduct]
    ring
  · simp

/-- Both constructors of the kite build the same dynamics when the properties are those of the
default constructor, but only the default constructor sets the output map: `getOutputMapping` of a
kite built from properties is the null function.  The output map of the default kite returns the
elevation and the azimuth. -/
theorem kite_constructors (p : KiteProps) :
    (kiteWith ⟨5, 3, 5⟩).numDynamics = kiteDefault.numDynamics ∧
    (kiteWith p).outputMap = none ∧
    ∃ g, kiteDefault.outputMap = some g ∧ ∀ x, g x = ![x 0, x 1] := by
  refine ⟨rfl, rfl, _, rfl, fun x => ?_⟩
  funext i
  fin_cases i <;> simp [put, Matrix.mulVec, dotProduct, Fin.sum_univ_three]

/-- The heading integrates the control. -/
theorem kite_heading_rate (p : KiteProps) (x : Fin 3 → ℝ) (u : Fin 1 → ℝ) :
    kiteDynamics p x u 2 = u 0 := by
  rw [kite_eq]
  simp

/-- A trajectory of the angles moves the kite on the sphere with this velocity, towards the north
and towards the east. -/
private theorem sphere_velocity (L : ℝ) (th ph : ℝ → ℝ) (th' ph' t : ℝ)
    (h1 : HasDerivAt th th' t) (h2 : HasDerivAt ph ph' t) (i : Fin 3) :
    HasDerivAt (fun s => onSphere L (th s) (ph s) i)
      (L * th' * north (th t) (ph t) i + L * Real.cos (th t) * ph' * east (ph t) i) t := by
  fin_cases i
  · refine (((h1.cos).mul (h2.cos)).const_mul L).congr_deriv ?_
    simp [north, east]
    ring
  · refine (((h1.cos).mul (h2.sin)).const_mul L).congr_deriv ?_
    simp [north, east]
    ring
  · refine ((h1.sin).const_mul L).congr_deriv ?_
    simp [north, east]
    ring

/-- The two tangents are orthonormal, so that the heading and the direction across it are too. -/
private theorem across (theta phi gamma a b : ℝ) :
    (∃ s : ℝ, ∀ i, a * north theta phi i + b * east phi i = s * heading theta phi gamma i) ↔
      a * Real.sin gamma = b * Real.cos gamma := by
  have n1 := Real.sin_sq_add_cos_sq theta
  have n2 := Real.sin_sq_add_cos_sq phi
  have n3 := Real.sin_sq_add_cos_sq gamma
  constructor
  · rintro ⟨s, hs⟩
    have e0 := hs 0
    have e1 := hs 1
    have e2 := hs 2
    simp only [heading, north, east, Matrix.cons_val] at e0 e1 e2
    have ha : a = s * Real.cos gamma := by
      linear_combination (-(Real.sin theta * Real.cos phi)) * e0
        + (-(Real.sin theta * Real.sin phi)) * e1 + Real.cos theta * e2
        - (a - s * Real.cos gamma) * n1
        - (a - s * Real.cos gamma) * Real.sin theta ^ 2 * n2
    have hb : b = s * Real.sin gamma := by
      linear_combination (-Real.sin phi) * e0 + Real.cos phi * e1
        - (b - s * Real.sin gamma) * n2
    rw [ha, hb]
    ring
  · intro h
    refine ⟨a * Real.cos gamma + b * Real.sin gamma, fun i => ?_⟩
    simp only [heading]
    linear_combination (-(a * north theta phi i) - b * east phi i) * n3
      + (Real.sin gamma * north theta phi i - Real.cos gamma * east phi i) * h

/-- A kite moves along its heading exactly where the factor below vanishes: on the horizon, when it
flies straight up, down or sideways, or where its speed is zero.  Everywhere else the modelled kite
slips sideways, because the azimuth rate is multiplied by the cosine of the elevation where the
kinematics on the sphere divide by it. -/
theorem kite_slips (p : KiteProps) (hL : p.tetherLength ≠ 0) (X : ℝ → Fin 3 → ℝ)
    (u : Fin 1 → ℝ) (t : ℝ) (h : ∀ i, HasDerivAt (fun s => X s i) (kiteDynamics p (X t) u i) t) :
    ∃ v : Fin 3 → ℝ,
      (∀ i, HasDerivAt (fun s => onSphere p.tetherLength (X s 0) (X s 1) i) (v i) t) ∧
      ((∃ s : ℝ, ∀ i, v i = s * heading (X t 0) (X t 1) (X t 2) i) ↔
        Real.sin (X t 0) ^ 2 * Real.sin (X t 2) * Real.cos (X t 2) *
          (p.windSpeed * (p.glidingRatio * (Real.cos (X t 0) * Real.cos (X t 1))
            - Real.cos (X t 2) * (Real.sin (X t 0) * Real.cos (X t 1))
            - Real.sin (X t 2) * Real.sin (X t 0))) = 0) := by
  refine ⟨_, fun i => sphere_velocity _ _ _ _ _ t (h 0) (h 1) i, ?_⟩
  rw [across]
  rw [kite_eq]
  simp only [Matrix.cons_val]
  have n1 := Real.sin_sq_add_cos_sq (X t 0)
  rw [← sub_eq_zero]
  refine Eq.congr ?_ rfl
  unfold codeSpeed
  field_simp
  have e : Real.cos (X t 0) ^ 2 = 1 - Real.sin (X t 0) ^ 2 := by linear_combination n1
  rw [e]
  ring

/-- The elevation rate is that of the reference kinematics exactly where the wind, the heading or the
difference of the sines of azimuth and elevation vanish: the code uses the elevation in place of the
azimuth in the second column of its rotation matrix. -/
theorem kite_elevation_rate (p : KiteProps) (hL : p.tetherLength ≠ 0) (x : Fin 3 → ℝ)
    (u : Fin 1 → ℝ) :
    kiteDynamics p x u 0 = kiteRate p.tetherLength p.windSpeed p.glidingRatio (x 0) (x 1) (x 2) 0 ↔
      p.windSpeed * Real.sin (x 2) * Real.cos (x 2) * (Real.sin (x 1) - Real.sin (x 0)) = 0 := by
  rw [kite_eq, ← sub_eq_zero]
  simp only [kiteRate, Matrix.cons_val]
  have : Real.cos (x 2) * codeSpeed p.windSpeed p.glidingRatio (x 0) (x 1) (x 2) / p.tetherLength
      - Real.cos (x 2) * kiteSpeed p.windSpeed p.glidingRatio (x 0) (x 1) (x 2) / p.tetherLength
      = p.windSpeed * Real.sin (x 2) * Real.cos (x 2) * (Real.sin (x 1) - Real.sin (x 0))
        / p.tetherLength := by
    simp only [codeSpeed, kiteSpeed, heading, north, east, down, Matrix.cons_val]
    ring
  rw [this, div_eq_zero_iff]
  simp [hL]

/-- The reference kinematics move along the heading and are symmetric under a reflection in the
plane of the wind. -/
theorem kite_reference (L ws E theta phi gamma : ℝ) (hc : Real.cos theta ≠ 0) :
    (∃ s : ℝ, ∀ i, L * kiteRate L ws E theta phi gamma 0 * north theta phi i
      + L * Real.cos theta * kiteRate L ws E theta phi gamma 1 * east phi i
        = s * heading theta phi gamma i) ∧
    kiteRate L ws E theta (-phi) (-gamma) 0 = kiteRate L ws E theta phi gamma 0 ∧
    kiteRate L ws E theta (-phi) (-gamma) 1 = -kiteRate L ws E theta phi gamma 1 := by
  refine ⟨?_, ?_, ?_⟩
  · rw [across]
    simp only [kiteRate, Matrix.cons_val]
    rcases eq_or_ne L 0 with h | h
    · simp [h]
    · field_simp
  · simp [kiteRate, kiteSpeed, heading, north, east, down]
  · simp [kiteRate, kiteSpeed, heading, north, east, down]
    ring

/-- Kites that fly mirrored figures in the plane of the wind do not behave alike: the elevation
rates of the two agree exactly where the factor below vanishes. -/
theorem kite_mirror (p : KiteProps) (hL : p.tetherLength ≠ 0) (theta phi gamma : ℝ)
    (u : Fin 1 → ℝ) :
    kiteDynamics p ![theta, -phi, -gamma] u 0 = kiteDynamics p ![theta, phi, gamma] u 0 ↔
      p.windSpeed * Real.sin gamma * Real.cos gamma * Real.sin theta = 0 := by
  rw [kite_eq, kite_eq, ← sub_eq_zero]
  simp only [Matrix.cons_val, Real.cos_neg]
  have : Real.cos gamma * codeSpeed p.windSpeed p.glidingRatio theta (-phi) (-gamma)
        / p.tetherLength
      - Real.cos gamma * codeSpeed p.windSpeed p.glidingRatio theta phi gamma / p.tetherLength
      = 2 * (p.windSpeed * Real.sin gamma * Real.cos gamma * Real.sin theta)
        / p.tetherLength := by
    simp only [codeSpeed, Real.cos_neg, Real.sin_neg]
    ring
  rw [this, div_eq_zero_iff]
  simp [hL]

/-- The default kite at elevation `π/4`, azimuth `0` and heading `π/4`: its elevation rate is not
that of the reference kinematics and not that of the mirrored kite. -/
example :
    kiteDynamics ⟨5, 3, 5⟩ ![Real.pi / 4, 0, Real.pi / 4] 0 0
      ≠ kiteRate 5 3 5 (Real.pi / 4) 0 (Real.pi / 4) 0 ∧
    kiteDynamics ⟨5, 3, 5⟩ ![Real.pi / 4, -0, -(Real.pi / 4)] 0 0
      ≠ kiteDynamics ⟨5, 3, 5⟩ ![Real.pi / 4, 0, Real.pi / 4] 0 0 := by
  constructor
  · intro h
    have := (kite_elevation_rate ⟨5, 3, 5⟩ (by norm_num) ![Real.pi / 4, 0, Real.pi / 4] 0).mp h
    simp at this
  · intro h
    have := (kite_mirror ⟨5, 3, 5⟩ (by norm_num) (Real.pi / 4) 0 (Real.pi / 4) 0).mp h
    simp at this

/-- The default kite at elevation `π/4`, azimuth `0` and heading `π/4` slips. -/
example : ∃ X : ℝ → Fin 3 → ℝ, X 0 = ![Real.pi / 4, 0, Real.pi / 4] ∧
    ∃ v : Fin 3 → ℝ, (∀ i, HasDerivAt (fun s => onSphere 5 (X s 0) (X s 1) i) (v i) 0) ∧
      ¬∃ s : ℝ, ∀ i, v i = s * heading (X 0 0) (X 0 1) (X 0 2) i := by
  set x : Fin 3 → ℝ := ![Real.pi / 4, 0, Real.pi / 4] with hx
  set f := kiteDynamics ⟨5, 3, 5⟩ x 0 with hf
  have h0 : (fun i => x i + 0 * f i) = x := by funext i; simp
  have hd : ∀ i, HasDerivAt (fun s => x i + s * f i) (f i) 0 := fun i => by
    simpa using ((hasDerivAt_id (0 : ℝ)).mul_const (f i)).const_add (x i)
  refine ⟨fun s i => x i + s * f i, h0, ?_⟩
  obtain ⟨v, hv, hiff⟩ := kite_slips ⟨5, 3, 5⟩ (by norm_num) (fun s i => x i + s * f i) 0 0
    (fun i => by
      have := hd i
      rw [hf] at this ⊢
      simpa [h0] using this)
  refine ⟨v, hv, fun h => ?_⟩
  have := hiff.mp h
  simp only [zero_mul, add_zero, hx, Matrix.cons_val, Real.sin_pi_div_four, Real.cos_pi_div_four,
    Real.cos_zero] at this
  have h2 : (Real.sqrt 2) ^ 2 = 2 := Real.sq_sqrt (by norm_num)
  have h3 : 0 < Real.sqrt 2 := Real.sqrt_pos.mpr (by norm_num)
  have h4 : Real.sqrt 2 < 2 := by nlinarith
  have h5 : (Real.sqrt 2 / 2) ^ 2 * (Real.sqrt 2 / 2) * (Real.sqrt 2 / 2) = 1 / 4 := by
    linear_combination (Real.sqrt 2 ^ 2 / 16 + 1 / 8) * h2
  rw [h5] at this
  nlinarith

end PolyMPC.Plants
