import Verif.Spec.AutoDiff
import Mathlib.Analysis.SpecialFunctions.Trigonometric.InverseDeriv
import Mathlib.Analysis.SpecialFunctions.Trigonometric.ArctanDeriv
import Mathlib.Analysis.SpecialFunctions.Complex.LogDeriv
import Mathlib.Analysis.SpecialFunctions.Pow.Deriv
import Mathlib.Analysis.SpecialFunctions.ExpDeriv
import Mathlib.Analysis.SpecialFunctions.Log.Deriv
import Mathlib.Analysis.Calculus.Deriv.Abs
import Mathlib.Analysis.Calculus.Deriv.Inv
import Mathlib.Analysis.Calculus.FDeriv.Mul

/-! # Helper lemmas for the AD properties -/

namespace PolyMPC.AD
open Spec Ops Filter Topology

set_option linter.unusedSectionVars false

variable {n m : ℕ}

/-! ### gradMap is linear -/

theorem gradMap_add (v w : Fin n → ℝ) : gradMap (fun j => v j + w j) = gradMap v + gradMap w := by
  ext z; simp [gradMap_apply, add_mul, Finset.sum_add_distrib]

theorem gradMap_sub (v w : Fin n → ℝ) : gradMap (fun j => v j - w j) = gradMap v - gradMap w := by
  ext z; simp [gradMap_apply, sub_mul, Finset.sum_sub_distrib]

theorem gradMap_neg (v : Fin n → ℝ) : gradMap (fun j => -v j) = -gradMap v := by
  ext z; simp [gradMap_apply]

theorem gradMap_mul (v : Fin n → ℝ) (c : ℝ) : gradMap (fun j => v j * c) = c • gradMap v := by
  ext z; simp only [gradMap_apply, _root_.smul_apply, smul_eq_mul, Finset.mul_sum]
  exact Finset.sum_congr rfl fun j _ => by ring

theorem gradMap_zero : gradMap (fun _ : Fin n => (0 : ℝ)) = 0 := by
  ext z; simp [gradMap_apply]

theorem gradMap_unit (i : Fin n) : gradMap (fun j => if j = i then (1 : ℝ) else 0) = ContinuousLinearMap.proj i := by
  ext z; simp [gradMap_apply]

/-! ### First-order tracking -/

/-- `d` carries the value and the gradient of `f` at `x`. -/
def Tracks (d : Dual n ℝ) (f : (Fin n → ℝ) → ℝ) (x : Fin n → ℝ) : Prop := d.val = f x ∧ IsGradient f d.der x

theorem Tracks.congr {d : Dual n ℝ} {f g : (Fin n → ℝ) → ℝ} {x : Fin n → ℝ} (h : Tracks d f x) (e : g =ᶠ[𝓝 x] f) :
    Tracks d g x := ⟨h.1.trans e.eq_of_nhds.symm, HasFDerivAt.congr_of_eventuallyEq h.2 e⟩

theorem Tracks.continuousAt {d : Dual n ℝ} {f : (Fin n → ℝ) → ℝ} {x : Fin n → ℝ} (h : Tracks d f x) : ContinuousAt f x :=
  HasFDerivAt.continuousAt h.2

theorem tracks_lit (c : ℝ) (x : Fin n → ℝ) : Tracks (lit c) (fun _ => c) x :=
  ⟨rfl, by
    show HasFDerivAt _ (gradMap fun _ => (0 : ℝ)) x
    rw [gradMap_zero]; exact hasFDerivAt_const _ _⟩

theorem tracks_seed (x : Fin n → ℝ) (i : Fin n) : Tracks (seed x i) (fun z => z i) x :=
  ⟨rfl, by
    show HasFDerivAt _ (gradMap fun j => if j = i then (1 : ℝ) else 0) x
    rw [gradMap_unit]; exact hasFDerivAt_apply i x⟩

theorem Tracks.chain {d : Dual n ℝ} {f : (Fin n → ℝ) → ℝ} {x : Fin n → ℝ} (h : Tracks d f x) {φ : ℝ → ℝ} {v c : ℝ}
    (hv : v = φ (f x)) (hd : HasDerivAt φ c (f x)) : Tracks (d.chain v c) (fun z => φ (f z)) x :=
  ⟨hv, by
    show HasFDerivAt _ (gradMap fun j => d.der j * c) x
    rw [gradMap_mul]; exact hd.comp_hasFDerivAt x h.2⟩

theorem Tracks.add {a b : Dual n ℝ} {f g : (Fin n → ℝ) → ℝ} {x : Fin n → ℝ} (ha : Tracks a f x) (hb : Tracks b g x) :
    Tracks (Ops.add a b) (fun z => f z + g z) x :=
  ⟨congrArg₂ (· + ·) ha.1 hb.1, by
    show HasFDerivAt _ (gradMap fun j => a.der j + b.der j) x
    rw [gradMap_add]; exact HasFDerivAt.add ha.2 hb.2⟩

theorem Tracks.sub {a b : Dual n ℝ} {f g : (Fin n → ℝ) → ℝ} {x : Fin n → ℝ} (ha : Tracks a f x) (hb : Tracks b g x) :
    Tracks (Ops.sub a b) (fun z => f z - g z) x :=
  ⟨congrArg₂ (· - ·) ha.1 hb.1, by
    show HasFDerivAt _ (gradMap fun j => a.der j - b.der j) x
    rw [gradMap_sub]; exact HasFDerivAt.sub ha.2 hb.2⟩

theorem Tracks.neg {a : Dual n ℝ} {f : (Fin n → ℝ) → ℝ} {x : Fin n → ℝ} (ha : Tracks a f x) :
    Tracks (Ops.neg a) (fun z => -f z) x :=
  ⟨congrArg (-·) ha.1, by
    show HasFDerivAt _ (gradMap fun j => -a.der j) x
    rw [gradMap_neg]; exact HasFDerivAt.neg ha.2⟩

theorem Tracks.mul {a b : Dual n ℝ} {f g : (Fin n → ℝ) → ℝ} {x : Fin n → ℝ} (ha : Tracks a f x) (hb : Tracks b g x) :
    Tracks (Ops.mul a b) (fun z => f z * g z) x :=
  ⟨congrArg₂ (· * ·) ha.1 hb.1, by
    show HasFDerivAt _ (gradMap fun j => a.der j * b.val + b.der j * a.val) x
    rw [gradMap_add, gradMap_mul, gradMap_mul, ha.1, hb.1, add_comm]
    exact HasFDerivAt.mul ha.2 hb.2⟩

theorem Tracks.div {a b : Dual n ℝ} {f g : (Fin n → ℝ) → ℝ} {x : Fin n → ℝ} (ha : Tracks a f x) (hb : Tracks b g x)
    (h0 : g x ≠ 0) : Tracks (Ops.div a b) (fun z => f z / g z) x :=
  ⟨congrArg₂ (· / ·) ha.1 hb.1, by
    show HasFDerivAt _ (gradMap fun j => (a.der j * b.val - b.der j * a.val) * (1 / (b.val * b.val))) x
    rw [gradMap_mul, gradMap_sub, gradMap_mul, gradMap_mul, ha.1, hb.1]
    have hinv := (hasDerivAt_inv h0).comp_hasFDerivAt x hb.2
    have := HasFDerivAt.mul ha.2 hinv
    simp only [div_eq_mul_inv]
    refine HasFDerivAt.congr_fderiv this ?_
    ext z
    simp only [_root_.add_apply, _root_.smul_apply, _root_.sub_apply, smul_eq_mul,
      Function.comp_apply]
    field_simp; ring⟩

theorem Tracks.atan2 {a b : Dual n ℝ} {f g : (Fin n → ℝ) → ℝ} {x : Fin n → ℝ} (ha : Tracks a f x) (hb : Tracks b g x)
    (h0 : 0 < g x ∨ f x ≠ 0) : Tracks (Ops.atan2 a b) (fun z => Complex.arg ⟨g z, f z⟩) x :=
  ⟨by show Complex.arg ⟨b.val, a.val⟩ = _; rw [ha.1, hb.1], by
    show HasFDerivAt _ (gradMap fun j => (a.der j * b.val - a.val * b.der j) / (a.val * a.val + b.val * b.val)) x
    have hs : (⟨g x, f x⟩ : ℂ) ∈ Complex.slitPlane := Complex.mem_slitPlane_iff.2 h0
    have hc : HasFDerivAt (fun z => (⟨g z, f z⟩ : ℂ))
        ((gradMap b.der).smulRight (1 : ℂ) + (gradMap a.der).smulRight Complex.I) x := by
      have h1 := (HasFDerivAt.smul_const hb.2 (1 : ℂ)).add (HasFDerivAt.smul_const ha.2 Complex.I)
      refine h1.congr_of_eventuallyEq (Eventually.of_forall fun z => ?_)
      apply Complex.ext <;> simp
    have hlog := (Complex.hasStrictFDerivAt_log_real hs).hasFDerivAt.comp x hc
    have him := Complex.imCLM.hasFDerivAt.comp x hlog
    have e : (fun z => Complex.arg ⟨g z, f z⟩) = fun z => Complex.imCLM (Complex.log ⟨g z, f z⟩) := by
      funext z; simp [Complex.log_im]
    rw [e]
    refine HasFDerivAt.congr_fderiv him ?_
    ext z
    have hn : f x * f x + g x * g x ≠ 0 := by
      rcases h0 with h | h
      · nlinarith [mul_self_nonneg (f x), mul_pos h h]
      · have := mul_self_pos.2 h
        nlinarith [mul_self_nonneg (g x)]
    rw [gradMap_apply]
    simp only [ContinuousLinearMap.comp_apply, _root_.add_apply, ContinuousLinearMap.smulRight_apply,
      gradMap_apply, _root_.smul_apply, _root_.one_apply_eq_self, smul_eq_mul, Complex.imCLM_apply,
      Complex.mul_im, Complex.inv_re, Complex.inv_im, Complex.normSq_mk, Complex.add_re, Complex.add_im,
      Complex.real_smul, Complex.mul_re, Complex.ofReal_re, Complex.ofReal_im, Complex.one_re, Complex.one_im,
      Complex.I_re, Complex.I_im, ha.1, hb.1]
    have e1 : ∑ j, (a.der j * g x - f x * b.der j) / (f x * f x + g x * g x) * z j
        = (g x * ∑ j, a.der j * z j - f x * ∑ j, b.der j * z j) / (f x * f x + g x * g x) := by
      rw [Finset.mul_sum, Finset.mul_sum, ← Finset.sum_sub_distrib, Finset.sum_div]
      exact Finset.sum_congr rfl fun j _ => by ring
    rw [e1]
    have hn' : g x * g x + f x * f x ≠ 0 := by rwa [add_comm]
    field_simp
    ring⟩

theorem Tracks.unary {d : Dual n ℝ} {f : (Fin n → ℝ) → ℝ} {x : Fin n → ℝ} (h : Tracks d f x) (u : Unary) (hu : u.Ok (f x)) :
    Tracks (u.run d) (fun z => u.run (f z)) x := by
  have hv := h.1
  cases u with
  | abs =>
    refine h.chain (φ := fun y => |y|) (by show |d.val| = _; rw [hv]) ?_
    have hne : f x ≠ 0 := hu
    show HasDerivAt _ (if d.val < 0 then (-1 : ℝ) else 1) (f x)
    rw [hv]
    by_cases h0 : f x < 0
    · rw [if_pos h0]
      exact hasDerivAt_abs_neg h0
    · rw [if_neg h0]
      exact hasDerivAt_abs_pos (lt_of_le_of_ne (not_lt.1 h0) hne.symm)
  | abs2 =>
    refine h.chain (φ := fun y => y * y) (by show d.val * d.val = _; rw [hv]) ?_
    show HasDerivAt _ (2 * d.val) (f x)
    rw [hv]
    have := (hasDerivAt_id (f x)).mul (hasDerivAt_id (f x))
    refine HasDerivAt.congr_deriv this ?_
    simp only [id]; ring
  | sqrt =>
    refine h.chain (φ := fun y => Real.sqrt y) (by show Real.sqrt d.val = _; rw [hv]) ?_
    have h0 : 0 < f x := hu
    show HasDerivAt _ (1 / 2 / Real.sqrt d.val) (f x)
    rw [hv]
    refine HasDerivAt.congr_deriv (Real.hasDerivAt_sqrt h0.ne') ?_
    rw [div_div]
  | cos =>
    refine h.chain (φ := fun y => Real.cos y) (by show Real.cos d.val = _; rw [hv]) ?_
    show HasDerivAt _ (-Real.sin d.val) (f x)
    rw [hv]; exact Real.hasDerivAt_cos _
  | sin =>
    refine h.chain (φ := fun y => Real.sin y) (by show Real.sin d.val = _; rw [hv]) ?_
    show HasDerivAt _ (Real.cos d.val) (f x)
    rw [hv]; exact Real.hasDerivAt_sin _
  | exp =>
    refine h.chain (φ := fun y => Real.exp y) (by show Real.exp d.val = _; rw [hv]) ?_
    show HasDerivAt _ (Real.exp d.val) (f x)
    rw [hv]; exact Real.hasDerivAt_exp _
  | log =>
    refine h.chain (φ := fun y => Real.log y) (by show Real.log d.val = _; rw [hv]) ?_
    have h0 : 0 < f x := hu
    show HasDerivAt _ (1 / d.val) (f x)
    rw [hv, one_div]; exact Real.hasDerivAt_log h0.ne'
  | floor => exact absurd hu id
  | tan =>
    refine h.chain (φ := fun y => Real.tan y) (by show Real.tan d.val = _; rw [hv]) ?_
    show HasDerivAt _ (1 / (Real.cos d.val * Real.cos d.val)) (f x)
    rw [hv, ← sq]; exact Real.hasDerivAt_tan hu
  | asin =>
    refine h.chain (φ := fun y => Real.arcsin y) (by show Real.arcsin d.val = _; rw [hv]) ?_
    have h0 : -1 < f x ∧ f x < 1 := hu
    show HasDerivAt _ (1 / Real.sqrt (1 - d.val * d.val)) (f x)
    rw [hv, ← sq]; exact Real.hasDerivAt_arcsin h0.1.ne' h0.2.ne
  | acos =>
    refine h.chain (φ := fun y => Real.arccos y) (by show Real.arccos d.val = _; rw [hv]) ?_
    have h0 : -1 < f x ∧ f x < 1 := hu
    show HasDerivAt _ (-1 / Real.sqrt (1 - d.val * d.val)) (f x)
    rw [hv, ← sq]
    refine HasDerivAt.congr_deriv (Real.hasDerivAt_arccos h0.1.ne' h0.2.ne) ?_
    rw [neg_div]
  | tanh =>
    refine h.chain (φ := fun y => Real.tanh y) (by show Real.tanh d.val = _; rw [hv]) ?_
    show HasDerivAt _ (1 / (Real.cosh d.val * Real.cosh d.val)) (f x)
    rw [hv]
    have hc : Real.cosh (f x) ≠ 0 := (Real.cosh_pos _).ne'
    have e : Real.tanh = fun y => Real.sinh y / Real.cosh y := by funext y; exact Real.tanh_eq_sinh_div_cosh y
    have hd := (Real.hasDerivAt_sinh (f x)).div (Real.hasDerivAt_cosh (f x)) hc
    show HasDerivAt (fun y => Real.tanh y) _ _
    rw [e]
    refine HasDerivAt.congr_deriv hd ?_
    rw [← sq, ← sq, Real.cosh_sq]
    congr 1
    ring
  | sinh =>
    refine h.chain (φ := fun y => Real.sinh y) (by show Real.sinh d.val = _; rw [hv]) ?_
    show HasDerivAt _ (Real.cosh d.val) (f x)
    rw [hv]; exact Real.hasDerivAt_sinh _
  | cosh =>
    refine h.chain (φ := fun y => Real.cosh y) (by show Real.cosh d.val = _; rw [hv]) ?_
    show HasDerivAt _ (Real.sinh d.val) (f x)
    rw [hv]; exact Real.hasDerivAt_cosh _

theorem Tracks.addConst {d : Dual n ℝ} {f : (Fin n → ℝ) → ℝ} {x : Fin n → ℝ} (h : Tracks d f x) (c : ℝ) :
    Tracks (Ops.addS d c) (fun z => f z + c) x :=
  ⟨congrArg (· + c) h.1, HasFDerivAt.add_const c h.2⟩

theorem Tracks.mulConst {d : Dual n ℝ} {f : (Fin n → ℝ) → ℝ} {x : Fin n → ℝ} (h : Tracks d f x) (c : ℝ) :
    Tracks (Ops.mulS d c) (fun z => f z * c) x :=
  ⟨congrArg (· * c) h.1, by
    show HasFDerivAt _ (gradMap fun j => d.der j * c) x
    rw [gradMap_mul]; exact HasFDerivAt.mul_const h.2 c⟩

/-- A branch on a strict comparison does not move near the point. -/
theorem Tracks.ite_lt {a b : Dual n ℝ} {f g p q : (Fin n → ℝ) → ℝ} {x : Fin n → ℝ} (ha : p x < q x → Tracks a f x)
    (hb : ¬ p x < q x → Tracks b g x) (hp : ContinuousAt p x) (hq : ContinuousAt q x) (hne : p x ≠ q x) :
    Tracks (if p x < q x then a else b) (fun z => if p z < q z then f z else g z) x := by
  by_cases h : p x < q x
  · rw [if_pos h]
    refine (ha h).congr ?_
    filter_upwards [hp.eventually_lt hq h] with z hz
    rw [if_pos hz]
  · rw [if_neg h]
    refine (hb h).congr ?_
    have h' : q x < p x := lt_of_le_of_ne (not_lt.1 h) hne.symm
    filter_upwards [hq.eventually_lt hp h'] with z hz
    rw [if_neg (not_lt.2 hz.le)]

theorem Tracks.mix {d : Dual n ℝ} {f : (Fin n → ℝ) → ℝ} {x : Fin n → ℝ} (h : Tracks d f x) (o : Mixed) (c : ℝ)
    (ho : o.Ok c (f x)) : Tracks (o.run c d) (fun z => o.run c (f z)) x := by
  have hv := h.1
  cases o with
  | addS => exact h.addConst c
  | sAdd =>
    refine ⟨?_, ?_⟩
    · show c + d.val = c + f x
      rw [hv]
    · exact HasFDerivAt.const_add c h.2
  | subS =>
    refine ⟨?_, ?_⟩
    · show d.val - c = f x - c
      rw [hv]
    · exact HasFDerivAt.sub_const c h.2
  | sSub =>
    refine ⟨?_, ?_⟩
    · show c - d.val = c - f x
      rw [hv]
    · show HasFDerivAt _ (gradMap fun j => -d.der j) x
      rw [gradMap_neg]; exact HasFDerivAt.const_sub h.2 c
  | mulS => exact h.mulConst c
  | sMul =>
    refine ⟨?_, ?_⟩
    · show d.val * c = c * f x
      rw [hv, mul_comm]
    · show HasFDerivAt _ (gradMap fun j => d.der j * c) x
      rw [gradMap_mul]; exact HasFDerivAt.const_mul h.2 c
  | divS =>
    refine ⟨?_, ?_⟩
    · show d.val / c = f x / c
      rw [hv]
    · show HasFDerivAt (fun z => f z / c) (gradMap fun j => d.der j * (1 / c)) x
      rw [gradMap_mul, one_div]
      simp only [div_eq_mul_inv]
      exact HasFDerivAt.mul_const h.2 c⁻¹
  | sDiv =>
    have h0 : f x ≠ 0 := ho
    refine ⟨?_, ?_⟩
    · show c / d.val = c / f x
      rw [hv]
    · show HasFDerivAt (fun z => c / f z) (gradMap fun j => d.der j * (-c / (d.val * d.val))) x
      rw [gradMap_mul, hv]
      have hi := ((hasDerivAt_inv h0).const_mul c).comp_hasFDerivAt x h.2
      simp only [div_eq_mul_inv]
      refine HasFDerivAt.congr_fderiv hi ?_
      congr 1
      rw [← sq]; ring
  | minS =>
    have h0 : f x ≠ c := ho
    have := Tracks.ite_lt (p := fun z => c) (q := f) (x := x) (fun _ => tracks_lit (n := n) c x) (fun _ => h)
      continuousAt_const h.continuousAt h0.symm
    have e1 : Mixed.run .minS c d = if c < f x then lit c else d := by
      show (if d.val ≤ c then d else lit c) = _
      rw [hv]
      by_cases h1 : c < f x
      · rw [if_pos h1, if_neg (not_le.2 h1)]
      · rw [if_neg h1, if_pos (not_lt.1 h1)]
    have e2 : (fun z => Mixed.run .minS c (f z)) = fun z => if c < f z then c else f z := by
      funext z
      show (if f z ≤ c then f z else c) = _
      by_cases h1 : c < f z
      · rw [if_pos h1, if_neg (not_le.2 h1)]
      · rw [if_neg h1, if_pos (not_lt.1 h1)]
    rw [e1, e2]; exact this
  | maxS =>
    have h0 : f x ≠ c := ho
    have := Tracks.ite_lt (p := f) (q := fun z => c) (x := x) (fun _ => tracks_lit (n := n) c x) (fun _ => h)
      h.continuousAt continuousAt_const h0
    have e1 : Mixed.run .maxS c d = if f x < c then lit c else d := by
      show (if c ≤ d.val then d else lit c) = _
      rw [hv]
      by_cases h1 : f x < c
      · rw [if_pos h1, if_neg (not_le.2 h1)]
      · rw [if_neg h1, if_pos (not_lt.1 h1)]
    have e2 : (fun z => Mixed.run .maxS c (f z)) = fun z => if f z < c then c else f z := by
      funext z
      show (if c ≤ f z then f z else c) = _
      by_cases h1 : f z < c
      · rw [if_pos h1, if_neg (not_le.2 h1)]
      · rw [if_neg h1, if_pos (not_lt.1 h1)]
    rw [e1, e2]; exact this
  | sMin =>
    have h0 : f x ≠ c := ho
    have := Tracks.ite_lt (p := fun z => c) (q := f) (x := x) (fun _ => tracks_lit (n := n) c x) (fun _ => h)
      continuousAt_const h.continuousAt h0.symm
    have e1 : Mixed.run .sMin c d = if c < f x then lit c else d := by
      show (if c < d.val then lit c else d) = _
      rw [hv]
    rw [e1]; exact this
  | sMax =>
    have h0 : f x ≠ c := ho
    have := Tracks.ite_lt (p := f) (q := fun z => c) (x := x) (fun _ => tracks_lit (n := n) c x) (fun _ => h)
      h.continuousAt continuousAt_const h0
    have e1 : Mixed.run .sMax c d = if f x < c then lit c else d := by
      show (if d.val < c then lit c else d) = _
      rw [hv]
    rw [e1]; exact this

theorem Tracks.bin {a b : Dual n ℝ} {f g : (Fin n → ℝ) → ℝ} {x : Fin n → ℝ} (ha : Tracks a f x) (hb : Tracks b g x)
    (o : Binary) (ho : o.Ok (f x) (g x)) : Tracks (o.run a b) (fun z => o.run (f z) (g z)) x := by
  cases o with
  | add => exact ha.add hb
  | sub => exact ha.sub hb
  | mul => exact ha.mul hb
  | div => exact ha.div hb ho
  | atan2 => exact ha.atan2 hb ho
  | min =>
    have h0 : f x ≠ g x := ho
    have := Tracks.ite_lt (p := f) (q := g) (x := x) (fun _ => ha) (fun _ => hb) ha.continuousAt hb.continuousAt h0
    have e1 : Binary.run .min a b = if f x < g x then a else b := by
      show (if a.val < b.val then a else b) = _
      rw [ha.1, hb.1]
    rw [e1]; exact this
  | max =>
    have h0 : f x ≠ g x := ho
    have := Tracks.ite_lt (p := f) (q := g) (x := x) (fun _ => hb) (fun _ => ha) ha.continuousAt hb.continuousAt h0
    have e1 : Binary.run .max a b = if f x < g x then b else a := by
      show (if b.val ≤ a.val then a else b) = _
      rw [ha.1, hb.1]
      by_cases h1 : f x < g x
      · rw [if_pos h1, if_neg (not_le.2 h1)]
      · rw [if_neg h1, if_pos (not_lt.1 h1)]
    have e2 : (fun z => Binary.run .max (f z) (g z)) = fun z => if f z < g z then g z else f z := by
      funext z
      show (if g z ≤ f z then f z else g z) = _
      by_cases h1 : f z < g z
      · rw [if_pos h1, if_neg (not_le.2 h1)]
      · rw [if_neg h1, if_pos (not_lt.1 h1)]
    rw [e1, e2]; exact this

theorem Tracks.pow {d : Dual n ℝ} {f : (Fin n → ℝ) → ℝ} {x : Fin n → ℝ} (h : Tracks d f x) (y : ℝ) (hy : PowOk (f x) y) :
    Tracks (Ops.pow d y) (fun z => f z ^ y) x := by
  have hv := h.1
  refine h.chain (φ := fun t => t ^ y) (by show d.val ^ y = _; rw [hv]) ?_
  show HasDerivAt _ (y * d.val ^ (y - 1)) (f x)
  rw [hv]
  apply Real.hasDerivAt_rpow_const
  rcases hy with h0 | ⟨k, rfl, h1 | h1⟩
  · exact Or.inl h0.ne'
  · exact Or.inl h1
  · exact Or.inr (by exact_mod_cast h1)

/-- Chain rule for a whole callback: arguments that carry values and gradients give a result that does. -/
theorem Tracks.expr (e : Expr m) {env : Fin m → Dual n ℝ} {g : (Fin n → ℝ) → Fin m → ℝ} {x : Fin n → ℝ}
    (h : ∀ i, Tracks (env i) (fun z => g z i) x) (ho : e.Ok (g x)) :
    Tracks (e.eval env) (fun z => e.eval (g z)) x := by
  induction e with
  | var i => exact h i
  | const c => exact tracks_lit c x
  | neg a iha => exact (iha ho).neg
  | un f a iha => exact (iha ho.1).unary f ho.2
  | mix o c a iha => exact (iha ho.1).mix o c ho.2
  | bin o a b iha ihb => exact (iha ho.1).bin (ihb ho.2.1) o ho.2.2
  | pow a y iha => exact (iha ho.1).pow y ho.2

/-! ### Second-order tracking -/

/-- `r` carries, in its value and in each of its derivatives, the value and the gradient of the corresponding component of the
first-order result `F` seen as a function of the arguments. -/
def Tracks2 (r : Dual n (Dual n ℝ)) (F : (Fin n → ℝ) → Dual n ℝ) (x : Fin n → ℝ) : Prop :=
  Tracks r.val (fun z => (F z).val) x ∧ ∀ j, Tracks (r.der j) (fun z => (F z).der j) x

variable {r s : Dual n (Dual n ℝ)} {F G : (Fin n → ℝ) → Dual n ℝ} {x : Fin n → ℝ}

theorem Tracks2.congr (h : Tracks2 r F x) (e : G =ᶠ[𝓝 x] F) : Tracks2 r G x :=
  ⟨h.1.congr (e.mono fun z hz => by show (G z).val = (F z).val; rw [hz]),
    fun j => (h.2 j).congr (e.mono fun z hz => by show (G z).der j = (F z).der j; rw [hz])⟩

theorem tracks2_lit (c : ℝ) (x : Fin n → ℝ) : Tracks2 (lit c) (fun _ => lit c) x :=
  ⟨tracks_lit c x, fun _ => tracks_lit 0 x⟩

theorem tracks2_seed (x : Fin n → ℝ) (i : Fin n) : Tracks2 (seed2 x i) (fun z => seed z i) x :=
  ⟨tracks_seed x i, fun j => tracks_lit (if j = i then 1 else 0) x⟩

theorem Tracks2.chain (h : Tracks2 r F x) {v c : Dual n ℝ} {φ ψ : (Fin n → ℝ) → ℝ} (hv : Tracks v φ x) (hc : Tracks c ψ x) :
    Tracks2 (r.chain v c) (fun z => (F z).chain (φ z) (ψ z)) x :=
  ⟨hv, fun j => (h.2 j).mul hc⟩

theorem Tracks2.unary (h : Tracks2 r F x) (u : Unary) (hu : u.Ok (F x).val) :
    Tracks2 (u.run r) (fun z => u.run (F z)) x := by
  have hv := h.1.1
  cases u with
  | abs =>
    refine h.chain (h.1.unary .abs hu) ?_
    have h0 : (F x).val ≠ 0 := hu
    have := Tracks.ite_lt (p := fun z => (F z).val) (q := fun _ => (0 : ℝ)) (x := x) (fun _ => tracks_lit (-1) x)
      (fun _ => tracks_lit 1 x) h.1.continuousAt continuousAt_const h0
    show Tracks (if r.val.val < 0 then lit (-1) else lit 1) (fun z => if (F z).val < 0 then (-1 : ℝ) else 1) x
    rw [hv]; exact this
  | abs2 => exact h.chain (h.1.unary .abs2 trivial) ((tracks_lit 2 x).mul h.1)
  | sqrt =>
    have h0 : 0 < (F x).val := hu
    exact h.chain (h.1.unary .sqrt hu) ((tracks_lit (1 / 2) x).div (h.1.unary .sqrt hu) (Real.sqrt_pos.2 h0).ne')
  | cos => exact h.chain (h.1.unary .cos trivial) (h.1.unary .sin trivial).neg
  | sin => exact h.chain (h.1.unary .sin trivial) (h.1.unary .cos trivial)
  | exp => exact h.chain (h.1.unary .exp trivial) (h.1.unary .exp trivial)
  | log =>
    have h0 : 0 < (F x).val := hu
    exact h.chain (h.1.unary .log hu) ((tracks_lit 1 x).div h.1 h0.ne')
  | floor => exact absurd hu id
  | tan =>
    have h0 : Real.cos (F x).val ≠ 0 := hu
    exact h.chain (h.1.unary .tan hu) ((tracks_lit 1 x).div ((h.1.unary .cos trivial).unary .abs2 trivial) (mul_ne_zero h0 h0))
  | asin =>
    have h0 : -1 < (F x).val ∧ (F x).val < 1 := hu
    have h1 : 0 < 1 - (F x).val * (F x).val := by nlinarith [h0.1, h0.2]
    exact h.chain (h.1.unary .asin hu) ((tracks_lit 1 x).div
      (((h.1.unary .abs2 trivial).mix .sSub 1 trivial).unary .sqrt h1) (Real.sqrt_pos.2 h1).ne')
  | acos =>
    have h0 : -1 < (F x).val ∧ (F x).val < 1 := hu
    have h1 : 0 < 1 - (F x).val * (F x).val := by nlinarith [h0.1, h0.2]
    exact h.chain (h.1.unary .acos hu) ((tracks_lit (-1) x).div
      (((h.1.unary .abs2 trivial).mix .sSub 1 trivial).unary .sqrt h1) (Real.sqrt_pos.2 h1).ne')
  | tanh =>
    have h0 : Real.cosh (F x).val ≠ 0 := (Real.cosh_pos _).ne'
    exact h.chain (h.1.unary .tanh trivial)
      ((tracks_lit 1 x).div ((h.1.unary .cosh trivial).unary .abs2 trivial) (mul_ne_zero h0 h0))
  | sinh => exact h.chain (h.1.unary .sinh trivial) (h.1.unary .cosh trivial)
  | cosh => exact h.chain (h.1.unary .cosh trivial) (h.1.unary .sinh trivial)

theorem Tracks2.ite_lt {a b : Dual n (Dual n ℝ)} {p q : (Fin n → ℝ) → ℝ} (ha : p x < q x → Tracks2 a F x)
    (hb : ¬ p x < q x → Tracks2 b G x) (hp : ContinuousAt p x) (hq : ContinuousAt q x) (hne : p x ≠ q x) :
    Tracks2 (if p x < q x then a else b) (fun z => if p z < q z then F z else G z) x := by
  by_cases h : p x < q x
  · rw [if_pos h]
    refine (ha h).congr ?_
    filter_upwards [hp.eventually_lt hq h] with z hz
    rw [if_pos hz]
  · rw [if_neg h]
    refine (hb h).congr ?_
    have h' : q x < p x := lt_of_le_of_ne (not_lt.1 h) hne.symm
    filter_upwards [hq.eventually_lt hp h'] with z hz
    rw [if_neg (not_lt.2 hz.le)]

theorem Tracks2.mix (h : Tracks2 r F x) (o : Mixed) (c : ℝ) (ho : o.Ok c (F x).val) :
    Tracks2 (o.run c r) (fun z => o.run c (F z)) x := by
  have hv := h.1.1
  have hc := tracks_lit (n := n) c x
  cases o with
  | addS => exact ⟨h.1.add hc, h.2⟩
  | sAdd => exact ⟨hc.add h.1, h.2⟩
  | subS => exact ⟨h.1.sub hc, h.2⟩
  | sSub => exact ⟨hc.sub h.1, fun j => (h.2 j).neg⟩
  | mulS => exact ⟨h.1.mul hc, fun j => (h.2 j).mul hc⟩
  | sMul => exact ⟨h.1.mul hc, fun j => (h.2 j).mul hc⟩
  | divS =>
    have h0 : c ≠ 0 := ho
    exact ⟨h.1.div hc h0, fun j => (h.2 j).mul ((tracks_lit 1 x).div hc h0)⟩
  | sDiv =>
    have h0 : (F x).val ≠ 0 := ho
    exact ⟨hc.div h.1 h0, fun j => (h.2 j).mul (hc.neg.div (h.1.mul h.1) (mul_ne_zero h0 h0))⟩
  | minS =>
    have h0 : (F x).val ≠ c := ho
    have := Tracks2.ite_lt (p := fun _ => c) (q := fun z => (F z).val) (x := x) (fun _ => tracks2_lit (n := n) c x) (fun _ => h)
      continuousAt_const h.1.continuousAt h0.symm
    have e1 : Mixed.run .minS c r = if c < (F x).val then lit c else r := by
      show (if r.val.val ≤ c then r else lit c) = _
      rw [hv]
      by_cases h1 : c < (F x).val
      · rw [if_pos h1, if_neg (not_le.2 h1)]
      · rw [if_neg h1, if_pos (not_lt.1 h1)]
    have e2 : (fun z => Mixed.run .minS c (F z)) = fun z => if c < (F z).val then lit c else F z := by
      funext z
      show (if (F z).val ≤ c then F z else lit c) = _
      by_cases h1 : c < (F z).val
      · rw [if_pos h1, if_neg (not_le.2 h1)]
      · rw [if_neg h1, if_pos (not_lt.1 h1)]
    rw [e1, e2]; exact this
  | maxS =>
    have h0 : (F x).val ≠ c := ho
    have := Tracks2.ite_lt (p := fun z => (F z).val) (q := fun _ => c) (x := x) (fun _ => tracks2_lit (n := n) c x) (fun _ => h)
      h.1.continuousAt continuousAt_const h0
    have e1 : Mixed.run .maxS c r = if (F x).val < c then lit c else r := by
      show (if c ≤ r.val.val then r else lit c) = _
      rw [hv]
      by_cases h1 : (F x).val < c
      · rw [if_pos h1, if_neg (not_le.2 h1)]
      · rw [if_neg h1, if_pos (not_lt.1 h1)]
    have e2 : (fun z => Mixed.run .maxS c (F z)) = fun z => if (F z).val < c then lit c else F z := by
      funext z
      show (if c ≤ (F z).val then F z else lit c) = _
      by_cases h1 : (F z).val < c
      · rw [if_pos h1, if_neg (not_le.2 h1)]
      · rw [if_neg h1, if_pos (not_lt.1 h1)]
    rw [e1, e2]; exact this
  | sMin =>
    have h0 : (F x).val ≠ c := ho
    have := Tracks2.ite_lt (p := fun _ => c) (q := fun z => (F z).val) (x := x) (fun _ => tracks2_lit (n := n) c x) (fun _ => h)
      continuousAt_const h.1.continuousAt h0.symm
    have e1 : Mixed.run .sMin c r = if c < (F x).val then lit c else r := by
      show (if c < r.val.val then lit c else r) = _
      rw [hv]
    rw [e1]; exact this
  | sMax =>
    have h0 : (F x).val ≠ c := ho
    have := Tracks2.ite_lt (p := fun z => (F z).val) (q := fun _ => c) (x := x) (fun _ => tracks2_lit (n := n) c x) (fun _ => h)
      h.1.continuousAt continuousAt_const h0
    have e1 : Mixed.run .sMax c r = if (F x).val < c then lit c else r := by
      show (if r.val.val < c then lit c else r) = _
      rw [hv]
    rw [e1]; exact this

theorem Tracks2.bin (ha : Tracks2 r F x) (hb : Tracks2 s G x) (o : Binary) (ho : o.Ok (F x).val (G x).val) :
    Tracks2 (o.run r s) (fun z => o.run (F z) (G z)) x := by
  cases o with
  | add => exact ⟨ha.1.add hb.1, fun j => (ha.2 j).add (hb.2 j)⟩
  | sub => exact ⟨ha.1.sub hb.1, fun j => (ha.2 j).sub (hb.2 j)⟩
  | mul => exact ⟨ha.1.mul hb.1, fun j => ((ha.2 j).mul hb.1).add ((hb.2 j).mul ha.1)⟩
  | div =>
    have h0 : (G x).val ≠ 0 := ho
    exact ⟨ha.1.div hb.1 h0, fun j => (((ha.2 j).mul hb.1).sub ((hb.2 j).mul ha.1)).mul
      ((tracks_lit 1 x).div (hb.1.mul hb.1) (mul_ne_zero h0 h0))⟩
  | atan2 =>
    have h0 : 0 < (G x).val ∨ (F x).val ≠ 0 := ho
    have hn : (F x).val * (F x).val + (G x).val * (G x).val ≠ 0 := by
      rcases h0 with h | h
      · nlinarith [mul_self_nonneg (F x).val, mul_pos h h]
      · have := mul_self_pos.2 h
        nlinarith [mul_self_nonneg (G x).val]
    exact ⟨ha.1.atan2 hb.1 h0, fun j => (((ha.2 j).mul hb.1).sub (ha.1.mul (hb.2 j))).div
      ((ha.1.mul ha.1).add (hb.1.mul hb.1)) hn⟩
  | min =>
    have h0 : (F x).val ≠ (G x).val := ho
    have := Tracks2.ite_lt (p := fun z => (F z).val) (q := fun z => (G z).val) (x := x) (fun _ => ha) (fun _ => hb)
      ha.1.continuousAt hb.1.continuousAt h0
    have e1 : Binary.run .min r s = if (F x).val < (G x).val then r else s := by
      show (if r.val.val < s.val.val then r else s) = _
      rw [ha.1.1, hb.1.1]
    rw [e1]; exact this
  | max =>
    have h0 : (F x).val ≠ (G x).val := ho
    have := Tracks2.ite_lt (p := fun z => (F z).val) (q := fun z => (G z).val) (x := x) (fun _ => hb) (fun _ => ha)
      ha.1.continuousAt hb.1.continuousAt h0
    have e1 : Binary.run .max r s = if (F x).val < (G x).val then s else r := by
      show (if s.val.val ≤ r.val.val then r else s) = _
      rw [ha.1.1, hb.1.1]
      by_cases h1 : (F x).val < (G x).val
      · rw [if_pos h1, if_neg (not_le.2 h1)]
      · rw [if_neg h1, if_pos (not_lt.1 h1)]
    have e2 : (fun z => Binary.run .max (F z) (G z)) = fun z => if (F z).val < (G z).val then G z else F z := by
      funext z
      show (if (G z).val ≤ (F z).val then F z else G z) = _
      by_cases h1 : (F z).val < (G z).val
      · rw [if_pos h1, if_neg (not_le.2 h1)]
      · rw [if_neg h1, if_pos (not_lt.1 h1)]
    rw [e1, e2]; exact this

theorem Tracks2.neg (ha : Tracks2 r F x) : Tracks2 (Ops.neg r) (fun z => Ops.neg (F z)) x :=
  ⟨ha.1.neg, fun j => (ha.2 j).neg⟩

theorem Tracks2.pow (h : Tracks2 r F x) (y : ℝ) (h0 : 0 < (F x).val) :
    Tracks2 (Ops.pow r y) (fun z => Ops.pow (F z) y) x :=
  h.chain (h.1.pow y (Or.inl h0)) ((h.1.pow (y - 1) (Or.inl h0)).mix .sMul y trivial)

/-- The value of a first-order run is the plain run. -/
theorem eval_val (e : Expr m) (env : Fin m → Dual n ℝ) : (e.eval env).val = e.eval fun i => (env i).val := by
  induction e with
  | var i => rfl
  | const c => rfl
  | neg a iha => show -(a.eval env).val = -_; rw [iha]
  | un f a iha =>
    show (f.run (a.eval env)).val = f.run _
    rw [← iha]; cases f <;> rfl
  | mix o c a iha =>
    show (o.run c (a.eval env)).val = o.run c _
    rw [← iha]
    cases o <;> try rfl
    · exact mul_comm _ _
    · exact apply_ite Dual.val _ _ _
    · exact apply_ite Dual.val _ _ _
    · exact apply_ite Dual.val _ _ _
    · exact apply_ite Dual.val _ _ _
  | bin o a b iha ihb =>
    show (o.run (a.eval env) (b.eval env)).val = o.run _ _
    rw [← iha, ← ihb]
    cases o <;> try rfl
    · exact apply_ite Dual.val _ _ _
    · exact apply_ite Dual.val _ _ _
  | pow a y iha => show (a.eval env).val ^ y = _; rw [iha]; rfl

theorem Tracks2.expr (e : Expr m) {env : Fin m → Dual n (Dual n ℝ)} {g : (Fin n → ℝ) → Fin m → Dual n ℝ}
    (h : ∀ i, Tracks2 (env i) (fun z => g z i) x) (ho : e.Ok fun i => (g x i).val) (hp : e.NoPow) :
    Tracks2 (e.eval env) (fun z => e.eval (g z)) x := by
  induction e with
  | var i => exact h i
  | const c => exact tracks2_lit c x
  | neg a iha => exact (iha ho hp).neg
  | un f a iha => exact (iha ho.1 hp).unary f (by rw [eval_val]; exact ho.2)
  | mix o c a iha => exact (iha ho.1 hp).mix o c (by rw [eval_val]; exact ho.2)
  | bin o a b iha ihb =>
    exact (iha ho.1 hp.1).bin (ihb ho.2.1 hp.2) o (by rw [eval_val, eval_val]; exact ho.2.2)
  | pow a y iha => exact absurd hp id

/-! ### The domain is open -/

theorem ok_un_open (u : Unary) {f : (Fin n → ℝ) → ℝ} (hf : ContinuousAt f x) (h : u.Ok (f x)) : ∀ᶠ z in 𝓝 x, u.Ok (f z) := by
  cases u with
  | abs => exact hf.eventually_ne h
  | sqrt => exact hf.eventually (lt_mem_nhds h)
  | log => exact hf.eventually (lt_mem_nhds h)
  | floor => exact absurd h id
  | tan => exact (Real.continuous_cos.continuousAt.comp hf).eventually_ne h
  | asin => exact (hf.eventually (lt_mem_nhds h.1)).and (hf.eventually (gt_mem_nhds h.2))
  | acos => exact (hf.eventually (lt_mem_nhds h.1)).and (hf.eventually (gt_mem_nhds h.2))
  | _ => exact Eventually.of_forall fun _ => trivial

theorem ok_mix_open (o : Mixed) (c : ℝ) {f : (Fin n → ℝ) → ℝ} (hf : ContinuousAt f x) (h : o.Ok c (f x)) :
    ∀ᶠ z in 𝓝 x, o.Ok c (f z) := by
  cases o with
  | divS => exact Eventually.of_forall fun _ => h
  | sDiv => exact hf.eventually_ne h
  | minS => exact hf.eventually_ne h
  | maxS => exact hf.eventually_ne h
  | sMin => exact hf.eventually_ne h
  | sMax => exact hf.eventually_ne h
  | _ => exact Eventually.of_forall fun _ => trivial

theorem eventually_ne_of_ne {f g : (Fin n → ℝ) → ℝ} (hf : ContinuousAt f x) (hg : ContinuousAt g x) (h : f x ≠ g x) :
    ∀ᶠ z in 𝓝 x, f z ≠ g z := by
  filter_upwards [(hf.sub hg).eventually_ne (sub_ne_zero.2 h)] with z hz
  exact sub_ne_zero.1 hz

theorem ok_bin_open (o : Binary) {f g : (Fin n → ℝ) → ℝ} (hf : ContinuousAt f x) (hg : ContinuousAt g x)
    (h : o.Ok (f x) (g x)) : ∀ᶠ z in 𝓝 x, o.Ok (f z) (g z) := by
  cases o with
  | div => exact hg.eventually_ne h
  | atan2 =>
    rcases h with h | h
    · exact (hg.eventually (lt_mem_nhds h)).mono fun z hz => Or.inl hz
    · exact (hf.eventually_ne h).mono fun z hz => Or.inr hz
  | min => exact eventually_ne_of_ne hf hg h
  | max => exact eventually_ne_of_ne hf hg h
  | _ => exact Eventually.of_forall fun _ => trivial

theorem ok_pow_open (y : ℝ) {f : (Fin n → ℝ) → ℝ} (hf : ContinuousAt f x) (h : PowOk (f x) y) :
    ∀ᶠ z in 𝓝 x, PowOk (f z) y := by
  rcases h with h | ⟨k, hk, h | h⟩
  · exact (hf.eventually (lt_mem_nhds h)).mono fun z hz => Or.inl hz
  · exact (hf.eventually_ne h).mono fun z hz => Or.inr ⟨k, hk, Or.inl hz⟩
  · exact Eventually.of_forall fun _ => Or.inr ⟨k, hk, Or.inr h⟩

theorem eval_continuousAt (e : Expr n) (h : e.Ok x) : ContinuousAt (fun z => e.eval z) x :=
  (Tracks.expr e (g := fun z => z) (tracks_seed x) h).continuousAt

theorem ok_open (e : Expr n) (h : e.Ok x) : ∀ᶠ z in 𝓝 x, e.Ok z := by
  induction e with
  | var i => exact Eventually.of_forall fun _ => trivial
  | const c => exact Eventually.of_forall fun _ => trivial
  | neg a iha => exact iha h
  | un f a iha => exact (iha h.1).and (ok_un_open f (eval_continuousAt a h.1) h.2)
  | mix o c a iha => exact (iha h.1).and (ok_mix_open o c (eval_continuousAt a h.1) h.2)
  | bin o a b iha ihb =>
    exact (iha h.1).and ((ihb h.2.1).and (ok_bin_open o (eval_continuousAt a h.1) (eval_continuousAt b h.2.1) h.2.2))
  | pow a y iha => exact (iha h.1).and (ok_pow_open y (eval_continuousAt a h.1) h.2)

end PolyMPC.AD
