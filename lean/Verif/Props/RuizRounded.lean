import Verif.Model.RuizRounded
import Verif.Spec.RelError
import Verif.Lemmas.Rounding
import Verif.Props.Ruiz

/-!
# Property C228: Ruiz equilibration with rounding errors
-/

set_option linter.unusedSectionVars false

namespace PolyMPC.RuizRounded
open Matrix PolyMPC.Spec PolyMPC.Rounding
open PolyMPC.Ruiz (State Variant init maxCoeff guardZero Positive HNormNonneg denseVariant guardZero_pos)

variable {N M : ℕ} {ar : Arith} {ε : ℝ} {g : ℕ → ℝ} {a b c d : ℝ} {k l : ℕ}

/-! ## Numbers up to rounding -/

theorem close_refl (ε a : ℝ) : Close ε 0 a a := ⟨1, by simp, by simp, by simp⟩

section close
variable (h0 : 0 ≤ ε) (h1 : ε < 1)
include h0 h1

theorem close_pow_pos (k : ℕ) : 0 < (1 - ε) ^ k := pow_pos (by linarith) k

theorem close_mul (h : Close ε k a b) (h' : Close ε l c d) : Close ε (k + l) (a * c) (b * d) := by
  obtain ⟨s, s1, s2, rfl⟩ := h
  obtain ⟨t, t1, t2, rfl⟩ := h'
  have p := close_pow_pos h0 h1 k
  have q := close_pow_pos h0 h1 l
  refine ⟨s * t, ?_, ?_, by ring⟩
  · rw [pow_add]; exact mul_le_mul s1 t1 q.le (p.le.trans s1)
  · rw [pow_add, show s * t * ((1 - ε) ^ k * (1 - ε) ^ l) = (s * (1 - ε) ^ k) * (t * (1 - ε) ^ l) by ring]
    exact mul_le_one₀ s2 (mul_nonneg (q.le.trans t1) q.le) t2

theorem close_trans (h : Close ε k a b) (h' : Close ε l b c) : Close ε (k + l) a c := by
  obtain ⟨s, s1, s2, rfl⟩ := h
  have := close_mul h0 h1 (show Close ε k s 1 from ⟨s, s1, s2, by ring⟩) h'
  rw [one_mul, mul_comm s] at this
  exact this

theorem close_symm (h : Close ε k a b) : Close ε k b a := by
  obtain ⟨s, s1, s2, rfl⟩ := h
  have p := close_pow_pos h0 h1 k
  have hs := p.trans_le s1
  refine ⟨s⁻¹, ?_, ?_, by rw [mul_assoc, mul_inv_cancel₀ hs.ne', mul_one]⟩
  · rw [le_inv_comm₀ p hs, ← one_div, le_div_iff₀ p]; exact s2
  · rw [inv_mul_le_iff₀ hs, mul_one]; exact s1

theorem close_inv (h : Close ε k a b) : Close ε k a⁻¹ b⁻¹ := by
  obtain ⟨s, s1, s2, rfl⟩ := h
  have p := close_pow_pos h0 h1 k
  have hs := p.trans_le s1
  refine ⟨s⁻¹, ?_, ?_, mul_inv _ _⟩
  · rw [le_inv_comm₀ p hs, ← one_div, le_div_iff₀ p]; exact s2
  · rw [inv_mul_le_iff₀ hs, mul_one]; exact s1

theorem close_mono (h : Close ε k a b) (hkl : k ≤ l) : Close ε l a b := by
  obtain ⟨s, s1, s2, rfl⟩ := h
  have p := close_pow_pos h0 h1 k
  have e : (1 - ε) ^ l ≤ (1 - ε) ^ k := pow_le_pow_of_le_one (by linarith) (by linarith) hkl
  exact ⟨s, e.trans s1, (mul_le_mul_of_nonneg_left e (p.le.trans s1)).trans s2, rfl⟩

theorem close_pos (h : Close ε k a b) (hb : 0 < b) : 0 < a := by
  obtain ⟨s, s1, -, rfl⟩ := h
  exact mul_pos hb ((close_pow_pos h0 h1 k).trans_le s1)

/-- C228. Numbers that agree up to rounding have the same sign; in particular zeros stay zeros. -/
theorem close_sign (h : Close ε k a b) : (a = 0 ↔ b = 0) ∧ (0 < a ↔ 0 < b) ∧ (a < 0 ↔ b < 0) := by
  obtain ⟨s, s1, -, rfl⟩ := h
  have hs := (close_pow_pos h0 h1 k).trans_le s1
  refine ⟨by simp [hs.ne'], mul_pos_iff_of_pos_right hs, ?_⟩
  rw [← neg_pos, ← neg_mul, mul_pos_iff_of_pos_right hs, neg_pos]

/-- C228. Agreement up to `k` roundings of size `ε` is a relative error of at most `k ε / (1 - k ε)`. -/
theorem close_error (h : Close ε k a b) (hk : k * ε < 1) : |a - b| ≤ k * ε / (1 - k * ε) * |b| := by
  obtain ⟨s, s1, s2, rfl⟩ := h
  have p := close_pow_pos h0 h1 k
  have hb : 1 - k * ε ≤ (1 - ε) ^ k := by
    have := one_add_mul_le_pow (a := -ε) (by linarith) k
    rw [← sub_eq_add_neg] at this
    linarith
  have hd : 0 < 1 - k * ε := by linarith
  have hke : 0 ≤ k * ε := mul_nonneg (Nat.cast_nonneg k) h0
  have hs : 0 < s := p.trans_le s1
  rw [show b * s - b = (s - 1) * b by ring, abs_mul]
  refine mul_le_mul_of_nonneg_right ?_ (abs_nonneg b)
  rw [abs_le]
  have hq : k * ε ≤ k * ε / (1 - k * ε) := by
    rw [le_div_iff₀ hd]; nlinarith
  constructor
  · linarith
  · rw [le_div_iff₀ hd]
    have : s * (1 - k * ε) ≤ 1 := (mul_le_mul_of_nonneg_left hb hs.le).trans s2
    nlinarith

end close

section ops
variable (hu : Accurate ar ε g)
include hu

theorem close_of_error {r t : ℝ} (h : |r - t| ≤ ε * |t|) : Close ε 1 r t := by
  have h0 := hu.eps0
  have h1 := hu.eps1
  by_cases ht : t = 0
  · subst ht
    rw [abs_zero, mul_zero] at h
    have : r = 0 := by simpa using abs_nonpos_iff.mp h
    exact ⟨1, by simpa using h0, by simpa using h0, by rw [this]; simp⟩
  · have hp : 0 < |t| := abs_pos.mpr ht
    have e : |r / t - 1| ≤ ε := by
      rw [show r / t - 1 = (r - t) / t by field_simp, abs_div, div_le_iff₀ hp]; exact h
    rw [abs_le] at e
    refine ⟨r / t, by rw [pow_one]; linarith, ?_, by field_simp⟩
    rw [pow_one]
    nlinarith [mul_le_mul_of_nonneg_right (show r / t ≤ 1 + ε by linarith) (show 0 ≤ 1 - ε by linarith), sq_nonneg ε]

/-- A computed product of numbers known up to rounding. -/
theorem close_rmul (h : Close ε k a b) (h' : Close ε l c d) : Close ε (k + l + 1) (ar.mul a c) (b * d) := by
  have := close_trans hu.eps0 hu.eps1 (close_of_error hu (hu.mul a c)) (close_mul hu.eps0 hu.eps1 h h')
  rwa [add_comm] at this

/-- A computed reciprocal. -/
theorem close_rinv (ha : a ≠ 0) : Close ε 1 (ar.div 1 a) a⁻¹ := by
  have := close_of_error hu (hu.div 1 a ha)
  rwa [one_div] at this

end ops

/-! ## The loop -/

section loops
variable [NeZero N] [NeZero M] (hu : Accurate ar ε g) (hsq : ∀ a, 0 < a → 0 < ar.sqrt a)
include hu hsq

theorem invSqrt_pos {n : ℕ} {v : Fin n → ℝ} (hv : ∀ k, 0 < v k) (k : Fin n) : 0 < invSqrt ar v k :=
  close_pos hu.eps0 hu.eps1 (close_rinv hu (hsq _ (hv k)).ne') (inv_pos.mpr (hsq _ (hv k)))

/-- The data after some sweeps: `H`, `A` and `h` are up to rounding those of the original problem scaled with the recorded factors, the bounds
are unchanged. -/
structure Track (ε : ℝ) (s : ℕ) (P : State ℝ N M) (qp0 qp : QP ℝ N M) : Prop where
  pos : Positive P
  H : ∀ i j, Close ε (6 * s) (qp.H i j) (P.c * P.D i * qp0.H i j * P.D j)
  A : ∀ i j, Close ε (4 * s) (qp.A i j) (P.E i * qp0.A i j * P.D j)
  h : ∀ i, Close ε (4 * s) (qp.h i) (P.c * (qp0.h i * P.D i))
  Aub : qp.Aub = qp0.Aub
  Alb : qp.Alb = qp0.Alb
  xlb : qp.xlb = qp0.xlb
  xub : qp.xub = qp0.xub

theorem sweep_track {var : Variant ℝ N M} (hz : 0 < var.approxZero) (hh : HNormNonneg var) {dense : Bool} {s : ℕ}
    {P P' : State ℝ N M} {qp0 qp qp' : QP ℝ N M} {norm : ℝ} (ht : Track ε s P qp0 qp)
    (h : sweep ar var dense P qp = some (P', qp', norm)) : Track ε (s + 1) P' qp0 qp' := by
  have h0 := hu.eps0
  have h1 := hu.eps1
  unfold sweep at h
  dsimp only at h
  rw [Option.ite_none_left_eq_some] at h
  obtain ⟨hne, h⟩ := h
  simp only [Option.some.injEq, Prod.mk.injEq] at h
  obtain ⟨rfl, rfl, -⟩ := h
  generalize hmD : invSqrt ar (guardZero var.approxZero fun j => max (var.colH qp.H j) (var.colA qp.A j)) = mD at *
  generalize hmE : invSqrt ar (guardZero var.approxZero (var.rowA qp.A)) = mE at *
  have pD : ∀ i, 0 < mD i := fun i => by rw [← hmD]; exact invSqrt_pos hu hsq (guardZero_pos hz _) i
  have pE : ∀ i, 0 < mE i := fun i => by rw [← hmE]; exact invSqrt_pos hu hsq (guardZero_pos hz _) i
  generalize hdv : max (mean ar (var.colH (scaleMatrices ar dense mD mE qp).H))
    (var.hNorm (infNorm (scaleMatrices ar dense mD mE qp).h)) = dv at *
  have pdv : 0 < dv := by
    refine lt_of_le_of_ne ?_ (Ne.symm hne)
    rw [← hdv]
    exact le_max_of_le_right (hh _ (infNorm_nonneg _))
  generalize hga : ar.div 1 dv = ga at *
  have pga : 0 < ga := by
    rw [← hga]
    exact close_pos h0 h1 (close_rinv hu pdv.ne') (inv_pos.mpr pdv)
  have r := close_refl ε
  have sD : ∀ i, Close ε 1 (P.D i * mD i) (ar.mul (P.D i) (mD i)) := fun i =>
    close_symm h0 h1 (close_of_error hu (hu.mul _ _))
  have sE : ∀ i, Close ε 1 (P.E i * mE i) (ar.mul (P.E i) (mE i)) := fun i =>
    close_symm h0 h1 (close_of_error hu (hu.mul _ _))
  have sc : Close ε 1 (P.c * ga) (ar.mul P.c ga) := close_symm h0 h1 (close_of_error hu (hu.mul _ _))
  refine ⟨⟨fun i => hu.mul_pos (ht.pos.D i) (pD i), fun i => hu.mul_pos (ht.pos.E i) (pE i), hu.mul_pos ht.pos.c pga⟩,
    fun i j => ?_, fun i j => ?_, fun i => ?_, ht.Aub, ht.Alb, ht.xlb, ht.xub⟩
  · change Close ε _ (ar.mul (ar.mul (ar.mul (mD i) (qp.H i j)) (mD j)) ga)
      (ar.mul P.c ga * ar.mul (P.D i) (mD i) * qp0.H i j * ar.mul (P.D j) (mD j))
    have e1 := close_rmul hu (close_rmul hu (close_rmul hu (r (mD i)) (ht.H i j)) (r (mD j))) (r ga)
    have e2 := close_mul h0 h1 (close_mul h0 h1 (close_mul h0 h1 sc (sD i)) (r (qp0.H i j))) (sD j)
    rw [show mD i * (P.c * P.D i * qp0.H i j * P.D j) * mD j * ga =
      P.c * ga * (P.D i * mD i) * qp0.H i j * (P.D j * mD j) by ring] at e1
    exact close_mono h0 h1 (close_trans h0 h1 e1 e2) (by omega)
  · change Close ε _ (entryA ar dense (mE i) (qp.A i j) (mD j))
      (ar.mul (P.E i) (mE i) * qp0.A i j * ar.mul (P.D j) (mD j))
    have e1 : Close ε (4 * s + 2) (entryA ar dense (mE i) (qp.A i j) (mD j))
        (P.E i * mE i * qp0.A i j * (P.D j * mD j)) := by
      unfold entryA
      by_cases hd : dense = true
      · rw [if_pos hd]
        have := close_rmul hu (close_rmul hu (r (mE i)) (ht.A i j)) (r (mD j))
        rw [show mE i * (P.E i * qp0.A i j * P.D j) * mD j = P.E i * mE i * qp0.A i j * (P.D j * mD j) by ring] at this
        exact close_mono h0 h1 this (by omega)
      · rw [if_neg hd]
        have := close_rmul hu (r (mE i)) (close_rmul hu (ht.A i j) (r (mD j)))
        rw [show mE i * (P.E i * qp0.A i j * P.D j * mD j) = P.E i * mE i * qp0.A i j * (P.D j * mD j) by ring] at this
        exact close_mono h0 h1 this (by omega)
    exact close_mono h0 h1 (close_trans h0 h1 e1 (close_mul h0 h1 (close_mul h0 h1 (sE i) (r (qp0.A i j))) (sD j)))
      (by omega)
  · change Close ε _ (ar.mul (ar.mul (qp.h i) (mD i)) ga) (ar.mul P.c ga * (qp0.h i * ar.mul (P.D i) (mD i)))
    have e1 := close_rmul hu (close_rmul hu (ht.h i) (r (mD i))) (r ga)
    rw [show P.c * (qp0.h i * P.D i) * mD i * ga = P.c * ga * (qp0.h i * (P.D i * mD i)) by ring] at e1
    exact close_mono h0 h1 (close_trans h0 h1 e1 (close_mul h0 h1 sc (close_mul h0 h1 (r (qp0.h i)) (sD i)))) (by omega)

theorem loop_track {var : Variant ℝ N M} (hz : 0 < var.approxZero) (hh : HNormNonneg var) {dense : Bool} (fuel : ℕ) {s : ℕ}
    {P P' : State ℝ N M} {qp0 qp qp' : QP ℝ N M} {norm : ℝ} (ht : Track ε s P qp0 qp)
    (h : loop ar var dense fuel P qp norm = some (P', qp')) : ∃ s', s' ≤ s + fuel ∧ Track ε s' P' qp0 qp' := by
  induction fuel generalizing s P qp norm with
  | zero =>
    simp only [loop, Option.some.injEq, Prod.mk.injEq] at h
    obtain ⟨rfl, rfl⟩ := h
    exact ⟨s, le_rfl, ht⟩
  | succ fuel ih =>
    unfold loop at h
    by_cases hc : ar.sub 1 norm ≥ ar.lit (1 / 1000)
    · rw [if_pos hc] at h
      cases hs : sweep ar var dense P qp with
      | none => rw [hs] at h; cases h
      | some r =>
        obtain ⟨P1, qp1, norm1⟩ := r
        rw [hs] at h
        obtain ⟨s', k1, k2⟩ := ih (sweep_track hu hsq hz hh ht hs) h
        exact ⟨s', by omega, k2⟩
    · rw [if_neg hc] at h
      simp only [Option.some.injEq, Prod.mk.injEq] at h
      obtain ⟨rfl, rfl⟩ := h
      exact ⟨s, by omega, ht⟩

/-- The data returned by `compute`, entry by entry. -/
theorem compute_track {var : Variant ℝ N M} (hz : 0 < var.approxZero) (hh : HNormNonneg var) {dense : Bool}
    {P P' : State ℝ N M} {qp qp' : QP ℝ N M} (h : compute ar var dense P qp = some (P', qp')) :
    Positive P' ∧ CloseQP ε 24 16 16 1 2 qp' (Ruiz.scale P' qp) := by
  have h0 := hu.eps0
  have h1 := hu.eps1
  have r := close_refl ε
  unfold compute at h
  rw [Option.map_eq_some_iff] at h
  obtain ⟨⟨P1, qp1⟩, k1, k2⟩ := h
  simp only [Prod.mk.injEq] at k2
  obtain ⟨rfl, rfl⟩ := k2
  have hi : Track ε 0 (init : State ℝ N M) qp qp :=
    ⟨Ruiz.positive_init, fun i j => by simpa [init] using r (qp.H i j), fun i j => by simpa [init] using r (qp.A i j),
      fun i => by simpa [init] using r (qp.h i), rfl, rfl, rfl, rfl⟩
  obtain ⟨s, hs, ht⟩ := loop_track hu hsq hz hh 4 hi k1
  refine ⟨ht.pos, fun i j => close_mono h0 h1 (ht.H i j) (by omega), fun i j => close_mono h0 h1 (ht.A i j) (by omega),
    fun i => close_mono h0 h1 (ht.h i) (by omega), fun i => ?_, fun i => ?_, fun i => ?_, fun i => ?_⟩
  · change Close ε 1 (ar.mul (qp1.Aub i) (P1.E i)) (qp.Aub i * P1.E i)
    rw [ht.Aub]; exact close_rmul hu (r _) (r _)
  · change Close ε 1 (ar.mul (qp1.Alb i) (P1.E i)) (qp.Alb i * P1.E i)
    rw [ht.Alb]; exact close_rmul hu (r _) (r _)
  · change Close ε 2 (ar.mul (qp1.xlb i) (ar.div 1 (P1.D i))) (qp.xlb i * (P1.D i)⁻¹)
    rw [ht.xlb]; exact close_rmul hu (r _) (close_rinv hu (ht.pos.D i).ne')
  · change Close ε 2 (ar.mul (qp1.xub i) (ar.div 1 (P1.D i))) (qp.xub i * (P1.D i)⁻¹)
    rw [ht.xub]; exact close_rmul hu (r _) (close_rinv hu (ht.pos.D i).ne')

end loops

/-! ## C228 -/

/-- Exact scaling undoes exact unscaling. -/
theorem scale_unscale {P : State ℝ N M} (hP : Positive P) (qp : QP ℝ N M) : Ruiz.scale P (Ruiz.unscale P qp) = qp := by
  have hD := fun i => (hP.D i).ne'
  have hE := fun i => (hP.E i).ne'
  have hc := hP.c.ne'
  obtain ⟨H, h, A, al, au, l, u⟩ := qp
  simp only [Ruiz.unscale, Ruiz.scale, Ruiz.scaleBounds, Ruiz.scaleMatrices, QP.mk.injEq, Matrix.of_apply]
  refine ⟨?_, ?_, ?_, ?_, ?_, ?_, ?_⟩
  · ext i j; simp only [Matrix.of_apply]; have := hD i; have := hD j; field_simp
  · funext i; have := hD i; field_simp
  · ext i j; simp only [Matrix.of_apply]; have := hE i; have := hD j; field_simp
  all_goals funext i; have := hD
  · have := hE i; field_simp
  · have := hE i; field_simp
  · have := hD i; field_simp
  · have := hD i; field_simp

/-- Exact unscaling keeps agreement up to rounding. -/
theorem unscale_close {P : State ℝ N M} {kH kA kh kb kx : ℕ} {a b : QP ℝ N M}
    (h : CloseQP ε kH kA kh kb kx a b) : CloseQP ε kH kA kh kb kx (Ruiz.unscale P a) (Ruiz.unscale P b) := by
  have key : ∀ {k : ℕ} {u v : ℝ} (p q : ℝ), Close ε k u v → Close ε k (p * u * q) (p * v * q) := by
    rintro k u v p q ⟨t, t1, t2, rfl⟩
    exact ⟨t, t1, t2, by ring⟩
  refine ⟨fun i j => key _ _ (h.H i j), fun i j => key _ _ (h.A i j), fun i => ?_, fun i => ?_, fun i => ?_, fun i => ?_,
    fun i => ?_⟩
  · have := key (1 / P.c) (P.D i)⁻¹ (h.h i); rw [mul_assoc, mul_assoc] at this; exact this
  · have := key 1 (P.E i)⁻¹ (h.Aub i); rw [one_mul, one_mul] at this; exact this
  · have := key 1 (P.E i)⁻¹ (h.Alb i); rw [one_mul, one_mul] at this; exact this
  · have := key 1 (P.D i) (h.xlb i); rw [one_mul, one_mul] at this; exact this
  · have := key 1 (P.D i) (h.xub i); rw [one_mul, one_mul] at this; exact this

/-- The computed unscaling against the exact one. -/
theorem runscale_close (hu : Accurate ar ε g) {P : State ℝ N M} (hP : Positive P) {kH kA kh kb kx : ℕ} {a b : QP ℝ N M}
    (h : CloseQP ε kH kA kh kb kx a b) :
    CloseQP ε (kH + 6) (kA + 4) (kh + 4) (kb + 2) (kx + 1) (unscale ar P a) (Ruiz.unscale P b) := by
  have h0 := hu.eps0
  have h1 := hu.eps1
  have r := close_refl ε
  have iD := fun i => close_rinv hu (hP.D i).ne'
  have iE := fun i => close_rinv hu (hP.E i).ne'
  have ic : Close ε 1 (ar.div 1 P.c) (1 / P.c) := by rw [one_div]; exact close_rinv hu hP.c.ne'
  exact ⟨fun i j => close_mono h0 h1 (close_rmul hu (close_rmul hu (close_rmul hu ic (iD i)) (h.H i j)) (iD j)) (by omega),
    fun i j => close_mono h0 h1 (close_rmul hu (close_rmul hu (iE i) (h.A i j)) (iD j)) (by omega),
    fun i => close_mono h0 h1 (close_rmul hu ic (close_rmul hu (h.h i) (iD i))) (by omega),
    fun i => close_rmul hu (h.Aub i) (iE i), fun i => close_rmul hu (h.Alb i) (iE i),
    fun i => close_rmul hu (h.xlb i) (r _), fun i => close_rmul hu (h.xub i) (r _)⟩

section claims
variable [NeZero N] [NeZero M] (hu : Accurate ar ε g) (hsq : ∀ a, 0 < a → 0 < ar.sqrt a)
include hu hsq

/-- C228. The scaled data computed in floating point are the exactly scaled data of a problem whose entries differ from the given ones by at
most 24 roundings (Hessian), 16 (constraint matrix, linear term), 1 (constraint bounds) and 2 (variable bounds). -/
theorem compute_backward {var : Variant ℝ N M} (hz : 0 < var.approxZero) (hh : HNormNonneg var) {dense : Bool}
    {P P' : State ℝ N M} {qp qp' : QP ℝ N M} (h : compute ar var dense P qp = some (P', qp')) :
    Positive P' ∧ ∃ near, CloseQP ε 24 16 16 1 2 near qp ∧ qp' = Ruiz.scale P' near := by
  obtain ⟨hP, hc⟩ := compute_track hu hsq hz hh h
  have := unscale_close (P := P') hc
  rw [Ruiz.unscale_scale hP] at this
  exact ⟨hP, _, this, (scale_unscale hP qp').symm⟩

/-- C228. A KKT point of the computed scaled problem, unscaled in floating point, agrees entry by entry with a KKT point of a problem near
the given one: up to one rounding in the variables, three in the constraint multipliers and four in the bound multipliers. -/
theorem unscaled_solution {var : Variant ℝ N M} (hz : 0 < var.approxZero) (hh : HNormNonneg var) {dense : Bool}
    {P P' : State ℝ N M} {qp qp' : QP ℝ N M} (h : compute ar var dense P qp = some (P', qp'))
    {x : Fin N → ℝ} {y : Fin M ⊕ Fin N → ℝ} (hk : qp'.KKT x y) :
    ∃ near x0 y0, CloseQP ε 24 16 16 1 2 near qp ∧ near.KKT x0 y0 ∧
      (∀ i, Close ε 1 ((unscalePair ar P' (x, y)).1 i) (x0 i)) ∧
      (∀ i, Close ε 3 ((unscalePair ar P' (x, y)).2 (Sum.inl i)) (y0 (Sum.inl i))) ∧
      ∀ i, Close ε 4 ((unscalePair ar P' (x, y)).2 (Sum.inr i)) (y0 (Sum.inr i)) := by
  obtain ⟨hP, near, hn, rfl⟩ := compute_backward hu hsq hz hh h
  have r := close_refl ε
  have iD := fun i => close_rinv hu (hP.D i).ne'
  have ic : Close ε 1 (ar.div 1 P'.c) (1 / P'.c) := by rw [one_div]; exact close_rinv hu hP.c.ne'
  refine ⟨near, (Ruiz.unscalePair P' (x, y)).1, (Ruiz.unscalePair P' (x, y)).2, hn, ?_, fun i => ?_, fun i => ?_, fun i => ?_⟩
  · rw [← Ruiz.kkt_iff hP]
    have := (Ruiz.unscalePair_scalePair hP (x, y)).2
    change (Ruiz.scale P' near).KKT (Ruiz.scalePair P' (Ruiz.unscalePair P' (x, y))).1
      (Ruiz.scalePair P' (Ruiz.unscalePair P' (x, y))).2
    rw [this]
    exact hk
  · exact close_rmul hu (r _) (r _)
  · exact close_rmul hu ic (close_rmul hu (r _) (r _))
  · exact close_rmul hu ic (close_rmul hu (r _) (iD i))

/-- C228. `compute` followed by `unscale` restores every entry up to 30 roundings (Hessian), 20 (constraint matrix, linear term) and 3
(bounds). -/
theorem unscale_compute_close {var : Variant ℝ N M} (hz : 0 < var.approxZero) (hh : HNormNonneg var) {dense : Bool}
    {P P' : State ℝ N M} {qp qp' : QP ℝ N M} (h : compute ar var dense P qp = some (P', qp')) :
    CloseQP ε 30 20 20 3 3 (unscale ar P' qp') qp := by
  obtain ⟨hP, hc⟩ := compute_track hu hsq hz hh h
  have := runscale_close hu hP hc
  rwa [Ruiz.unscale_scale hP] at this

/-- C228. Data that are scaled and unscaled in place `T` times drift by at most `T` times as many roundings. -/
theorem rounds_close {var : Variant ℝ N M} (hz : 0 < var.approxZero) (hh : HNormNonneg var) {dense : Bool}
    (Q S : ℕ → QP ℝ N M) (P : ℕ → State ℝ N M) (h : ∀ t, compute ar var dense (P t) (Q t) = some (P (t + 1), S t))
    (hQ : ∀ t, Q (t + 1) = unscale ar (P (t + 1)) (S t)) (T : ℕ) :
    CloseQP ε (30 * T) (20 * T) (20 * T) (3 * T) (3 * T) (Q T) (Q 0) := by
  have h0 := hu.eps0
  have h1 := hu.eps1
  induction T with
  | zero =>
    exact ⟨fun _ _ => close_refl _ _, fun _ _ => close_refl _ _, fun _ => close_refl _ _, fun _ => close_refl _ _,
      fun _ => close_refl _ _, fun _ => close_refl _ _, fun _ => close_refl _ _⟩
  | succ T ih =>
    have e := unscale_compute_close hu hsq hz hh (h T)
    rw [← hQ T] at e
    exact ⟨fun i j => close_mono h0 h1 (close_trans h0 h1 (e.H i j) (ih.H i j)) (by omega),
      fun i j => close_mono h0 h1 (close_trans h0 h1 (e.A i j) (ih.A i j)) (by omega),
      fun i => close_mono h0 h1 (close_trans h0 h1 (e.h i) (ih.h i)) (by omega),
      fun i => close_mono h0 h1 (close_trans h0 h1 (e.Aub i) (ih.Aub i)) (by omega),
      fun i => close_mono h0 h1 (close_trans h0 h1 (e.Alb i) (ih.Alb i)) (by omega),
      fun i => close_mono h0 h1 (close_trans h0 h1 (e.xlb i) (ih.xlb i)) (by omega),
      fun i => close_mono h0 h1 (close_trans h0 h1 (e.xub i) (ih.xub i)) (by omega)⟩

omit hu hsq in
/-- C228. `compute` on dense data has a result in every arithmetic: the cost factor is never a division by zero. -/
theorem dense_compute_defined (ar : Arith) {eps : ℝ} (heps : 0 < eps) (P : State ℝ N M) (qp : QP ℝ N M) :
    ∃ r, compute ar (denseVariant eps) true P qp = some r := by
  have hsome : ∀ fuel P qp norm, ∃ r, loop ar (denseVariant eps : Variant ℝ N M) true fuel P qp norm = some r := by
    intro fuel
    induction fuel with
    | zero => exact fun P qp norm => ⟨_, rfl⟩
    | succ fuel ih =>
      intro P qp norm
      unfold loop
      by_cases hc : ar.sub 1 norm ≥ ar.lit (1 / 1000)
      · rw [if_pos hc]
        have : ∃ r, sweep ar (denseVariant eps : Variant ℝ N M) true P qp = some r := by
          unfold sweep
          dsimp only
          rw [if_neg]
          · exact ⟨_, rfl⟩
          · exact (lt_max_of_lt_right (Ruiz.denseVariant_hNorm heps _ (infNorm_nonneg _))).ne'
        obtain ⟨⟨P1, qp1, n1⟩, hr⟩ := this
        rw [hr]
        exact ih P1 qp1 n1
      · rw [if_neg hc]; exact ⟨_, rfl⟩
  obtain ⟨r, hr⟩ := hsome 4 init qp (ar.mul 10 (ar.lit (1 / 1000)))
  exact ⟨(r.1, scaleBounds ar r.1 r.2), by unfold compute; rw [hr]; rfl⟩

end claims

/-- C228, for numbers with 53 significant bits (`double`, without overflow and underflow): dense `compute` followed by `unscale` changes an entry
of the Hessian by less than `3.4e-15` of its size, and an entry of any bound by less than `3.4e-16`. -/
theorem double_restores [NeZero N] [NeZero M] {sq : ℝ → ℝ} (hsq : IsSqrt sq) {eps : ℝ} (heps : 0 < eps) (P : State ℝ N M)
    (qp : QP ℝ N M) :
    ∃ P' qp', compute (Arith.plain (roundBits 52) sq) (denseVariant eps) true P qp = some (P', qp') ∧
      (∀ i j, |(unscale (Arith.plain (roundBits 52) sq) P' qp').H i j - qp.H i j| ≤ 34 / 10 ^ 16 * |qp.H i j|) ∧
      (∀ i, |(unscale (Arith.plain (roundBits 52) sq) P' qp').Aub i - qp.Aub i| ≤ 34 / 10 ^ 17 * |qp.Aub i|) ∧
      ∀ i, |(unscale (Arith.plain (roundBits 52) sq) P' qp').xub i - qp.xub i| ≤ 34 / 10 ^ 17 * |qp.xub i| := by
  have hu := (accurate_roundBits 52 sq).1
  have hs : ∀ a, 0 < a → 0 < (Arith.plain (roundBits 52) sq).sqrt a := fun a ha =>
    close_pos hu.eps0 hu.eps1 (close_of_error hu (roundBits_error 52 (sq a))) (hsq.pos ha)
  obtain ⟨⟨P', qp'⟩, hr⟩ := dense_compute_defined (Arith.plain (roundBits 52) sq) heps P qp
  have hc := unscale_compute_close hu hs (var := denseVariant eps) heps
    (fun x hx => (Ruiz.denseVariant_hNorm heps x hx).le) hr
  refine ⟨P', qp', hr, fun i j => ?_, fun i => ?_, fun i => ?_⟩
  · exact (close_error hu.eps0 hu.eps1 (hc.H i j) (by norm_num)).trans
      (mul_le_mul_of_nonneg_right (by norm_num) (abs_nonneg _))
  · exact (close_error hu.eps0 hu.eps1 (hc.Aub i) (by norm_num)).trans
      (mul_le_mul_of_nonneg_right (by norm_num) (abs_nonneg _))
  · exact (close_error hu.eps0 hu.eps1 (hc.xub i) (by norm_num)).trans
      (mul_le_mul_of_nonneg_right (by norm_num) (abs_nonneg _))

/-! ## Non-vacuity -/

/-- `½ 4 x² - 2 x` with the constraint `1 ≤ 3 x ≤ 6` and `0 ≤ x ≤ 5`; the minimiser is `x = 1/2`. -/
noncomputable def sampleQp : QP ℝ 1 1 where
  H := Matrix.of fun _ _ => 4
  h := fun _ => -2
  A := Matrix.of fun _ _ => 3
  Alb := fun _ => 1
  Aub := fun _ => 6
  xlb := fun _ => 0
  xub := fun _ => 5

theorem sampleQp_kkt : sampleQp.KKT (fun _ => 1 / 2) (fun _ => 0) := by
  refine ⟨?_, ?_⟩
  · funext i
    simp [QP.lagrangianGradient, sampleQp, Matrix.mulVec, dotProduct, QP.yA, QP.yBox]
    norm_num
  · intro i
    rcases i with i | i
    · simp [QP.lower, QP.upper, QP.rows, sampleQp, Matrix.mulVec, dotProduct]; norm_num
    · simp [QP.lower, QP.upper, QP.rows, sampleQp]; norm_num

/-- The hypotheses of `unscaled_solution` are met: with exact arithmetic the scaled problem has a KKT point. -/
example : ∃ (P' : State ℝ 1 1) (qp' : QP ℝ 1 1) (x : Fin 1 → ℝ) (y : Fin 1 ⊕ Fin 1 → ℝ),
    compute (Arith.exact Real.sqrt) (denseVariant (1 / 10 ^ 10)) true init sampleQp = some (P', qp') ∧ qp'.KKT x y := by
  have hu := accurate_exact Real.sqrt
  obtain ⟨⟨P', qp'⟩, hr⟩ := dense_compute_defined (Arith.exact Real.sqrt) (eps := 1 / 10 ^ 10) (by norm_num) init sampleQp
  obtain ⟨hP, near, hn, rfl⟩ := compute_backward hu (fun a ha => Real.sqrt_pos.mpr ha) (var := denseVariant (1 / 10 ^ 10))
    (by norm_num [denseVariant]) (fun x hx => (Ruiz.denseVariant_hNorm (by norm_num) x hx).le) hr
  have e : ∀ {k : ℕ} {a b : ℝ}, Close 0 k a b → a = b := by
    rintro k a b ⟨t, t1, t2, rfl⟩
    norm_num at t1 t2
    rw [le_antisymm t2 t1, mul_one]
  have hq : near = sampleQp := by
    obtain ⟨H, h, A, al, au, l, u⟩ := near
    simp only [sampleQp, QP.mk.injEq]
    exact ⟨by ext i j; exact e (hn.H i j), funext fun i => e (hn.h i), by ext i j; exact e (hn.A i j),
      funext fun i => e (hn.Alb i), funext fun i => e (hn.Aub i), funext fun i => e (hn.xlb i), funext fun i => e (hn.xub i)⟩
  rw [hq] at hr
  exact ⟨P', _, _, _, hr, (Ruiz.kkt_iff hP sampleQp _ _).mpr sampleQp_kkt⟩

/-- The restored data really differ in general: with an arithmetic that rounds every product up by the factor `1 + 1/8` the upper bound `5`
does not come back. -/
example : ∃ (ar : Arith) (g : ℕ → ℝ) (P' : State ℝ 1 1) (qp' : QP ℝ 1 1), Accurate ar (1 / 8) g ∧
    compute ar (denseVariant (1 / 10 ^ 10)) true init sampleQp = some (P', qp') ∧ 0 < P'.D 0 ∧
    (unscale ar P' qp').xub 0 = 5 * (9 / 8) ^ 2 := by
  have hu0 := accurate_exact Real.sqrt
  let ar : Arith := { Arith.exact Real.sqrt with mul := fun a b => a * b * (9 / 8) }
  have hu : Accurate ar (1 / 8) (fun _ => 1) := by
    refine ⟨by norm_num, by norm_num, fun _ => le_rfl, fun a b => ?_, fun a b => ?_, fun a b => ?_, fun a b _ => ?_,
      fun a b c => ?_, fun a b c d => ?_, fun n a b => ?_, fun a => ?_⟩
    · change |a + b - (a + b)| ≤ _; rw [sub_self, abs_zero]; positivity
    · change |a - b - (a - b)| ≤ _; rw [sub_self, abs_zero]; positivity
    · change |a * b * (9 / 8) - a * b| ≤ _
      rw [show a * b * (9 / 8) - a * b = 1 / 8 * (a * b) by ring, abs_mul, abs_of_pos (by norm_num : (0 : ℝ) < 1 / 8)]
    · change |a / b - a / b| ≤ _; rw [sub_self, abs_zero]; positivity
    · change |a * b + c - (a * b + c)| ≤ _; rw [sub_self, abs_zero]
      exact mul_nonneg (by norm_num) (by positivity)
    · change |a * b + c * d - (a * b + c * d)| ≤ _; rw [sub_self, abs_zero]
      exact mul_nonneg (by norm_num) (by positivity)
    · change |a ⬝ᵥ b - a ⬝ᵥ b| ≤ _; rw [sub_self, abs_zero, sub_self, zero_mul]
    · change |a - a| ≤ _; rw [sub_self, abs_zero]; positivity
  obtain ⟨⟨P', qp'⟩, hr⟩ := dense_compute_defined ar (eps := 1 / 10 ^ 10) (by norm_num) init sampleQp
  have hs : ∀ a, 0 < a → 0 < ar.sqrt a := fun a ha => Real.sqrt_pos.mpr ha
  have hz : 0 < (denseVariant (1 / 10 ^ 10) : Variant ℝ 1 1).approxZero := by norm_num [denseVariant]
  have hh : HNormNonneg (denseVariant (1 / 10 ^ 10) : Variant ℝ 1 1) :=
    fun x hx => (Ruiz.denseVariant_hNorm (by norm_num) x hx).le
  have hP := (compute_backward hu hs hz hh hr).1.D 0
  refine ⟨ar, _, P', qp', hu, hr, hP, ?_⟩
  unfold compute at hr
  rw [Option.map_eq_some_iff] at hr
  obtain ⟨⟨P1, qp1⟩, k1, k2⟩ := hr
  simp only [Prod.mk.injEq] at k2
  obtain ⟨rfl, rfl⟩ := k2
  have r := close_refl (1 / 8 : ℝ)
  have hi : Track (1 / 8) 0 (init : State ℝ 1 1) sampleQp sampleQp :=
    ⟨Ruiz.positive_init, fun i j => by simpa [init] using r _, fun i j => by simpa [init] using r _,
      fun i => by simpa [init] using r _, rfl, rfl, rfl, rfl⟩
  obtain ⟨s, -, ht⟩ := loop_track hu hs hz hh 4 hi k1
  change qp1.xub 0 * (1 / P1.D 0) * (9 / 8) * P1.D 0 * (9 / 8) = _
  rw [ht.xub]
  have := hP.ne'
  change 5 * (1 / P1.D 0) * (9 / 8) * P1.D 0 * (9 / 8) = _
  field_simp

end PolyMPC.RuizRounded
