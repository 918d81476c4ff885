import Verif.Model.Rounding
import Mathlib.Tactic.Linarith
import Mathlib.Tactic.Ring
import Mathlib.Tactic.NormNum
import Mathlib.Tactic.Positivity
import Mathlib.Tactic.FieldSimp
import Mathlib.Algebra.Order.BigOperators.Group.Finset
import Mathlib.Algebra.Order.AbsoluteValue.Basic

/-! Error propagation for `Verif.Model.Rounding`, and the arithmetics that satisfy `Accurate`. -/

namespace PolyMPC.Rounding
open Matrix

/-- The computed value `a'` approximates `a`, whose magnitude is at most `A`, up to the relative (to `A`) error `G - 1`. -/
def Near (G A a' a : ℝ) : Prop := 1 ≤ G ∧ |a' - a| ≤ (G - 1) * A ∧ |a| ≤ A

variable {G G' A B a a' b b' : ℝ}

theorem Near.refl (a : ℝ) : Near 1 |a| a a := ⟨le_rfl, by simp, le_rfl⟩

theorem Near.nonneg (h : Near G A a' a) : 0 ≤ A := (abs_nonneg a).trans h.2.2

theorem Near.mono (h : Near G A a' a) (hG : G ≤ G') : Near G' A a' a :=
  ⟨h.1.trans hG, h.2.1.trans (mul_le_mul_of_nonneg_right (by linarith) h.nonneg), h.2.2⟩

theorem Near.mono_mag (h : Near G A a' a) (hA : A ≤ B) : Near G B a' a :=
  ⟨h.1, h.2.1.trans (mul_le_mul_of_nonneg_left hA (by linarith [h.1])), h.2.2.trans hA⟩

/-- Magnitude of the computed value. -/
theorem Near.abs_le (h : Near G A a' a) : |a'| ≤ G * A := by
  have h1 : |a'| ≤ |a' - a| + |a| := by
    have := abs_add_le (a' - a) a
    rwa [sub_add_cancel] at this
  linarith [h.2.1, h.2.2]

/-- One more rounding with error factor `F`. -/
theorem Near.round {F r T : ℝ} (h : Near G A a' a) (hF : 1 ≤ F) (hr : |r - a'| ≤ (F - 1) * T) (hT : T ≤ G * A) :
    Near (F * G) A r a := by
  refine ⟨by nlinarith [h.1], ?_, h.2.2⟩
  have h1 := abs_add_le (r - a') (a' - a)
  rw [sub_add_sub_cancel] at h1
  have h2 := mul_le_mul_of_nonneg_left hT (sub_nonneg.mpr hF)
  have h3 := h.2.1
  nlinarith

theorem Near.plus (h : Near G A a' a) (k : Near G B b' b) : Near G (A + B) (a' + b') (a + b) := by
  refine ⟨h.1, ?_, (abs_add_le a b).trans (add_le_add h.2.2 k.2.2)⟩
  have : a' + b' - (a + b) = (a' - a) + (b' - b) := by ring
  rw [this]
  refine (abs_add_le _ _).trans ?_
  linarith [h.2.1, k.2.1]

theorem Near.neg (h : Near G A a' a) : Near G A (-a') (-a) := by
  refine ⟨h.1, ?_, by rw [abs_neg]; exact h.2.2⟩
  have : -a' - -a = -(a' - a) := by ring
  rw [this, abs_neg]
  exact h.2.1

theorem Near.times (h : Near G A a' a) (k : Near G' B b' b) : Near (G * G') (A * B) (a' * b') (a * b) := by
  refine ⟨by nlinarith [h.1, k.1], ?_, ?_⟩
  · have e : a' * b' - a * b = (a' - a) * b' + a * (b' - b) := by ring
    rw [e]
    refine (abs_add_le _ _).trans ?_
    rw [abs_mul, abs_mul]
    have h1 := mul_le_mul h.2.1 k.abs_le (abs_nonneg _) (mul_nonneg (by linarith [h.1]) h.nonneg)
    have h2 := mul_le_mul h.2.2 k.2.1 (abs_nonneg _) h.nonneg
    calc |a' - a| * |b'| + |a| * |b' - b| ≤ (G - 1) * A * (G' * B) + A * ((G' - 1) * B) := add_le_add h1 h2
      _ = (G * G' - 1) * (A * B) := by ring
  · rw [abs_mul]
    exact mul_le_mul h.2.2 k.2.2 (abs_nonneg _) h.nonneg

variable {ar : Arith} {ε : ℝ} {g : ℕ → ℝ}

section
variable (hu : Accurate ar ε g)
include hu

theorem Accurate.one_le : 1 ≤ 1 + ε := by linarith [hu.eps0]

theorem Accurate.one_le_sq : 1 ≤ (1 + ε) ^ 2 := one_le_pow₀ hu.one_le

/-- Powers of `1 + ε` grow. -/
theorem Accurate.pow_mono {m n : ℕ} (h : m ≤ n) : (1 + ε) ^ m ≤ (1 + ε) ^ n := pow_le_pow_right₀ hu.one_le h

theorem Accurate.near_add (h : Near G A a' a) (k : Near G B b' b) : Near ((1 + ε) * G) (A + B) (ar.add a' b') (a + b) :=
  (h.plus k).round hu.one_le (by rw [add_sub_cancel_left]; exact hu.add a' b') (h.plus k).abs_le

theorem Accurate.near_sub (h : Near G A a' a) (k : Near G B b' b) : Near ((1 + ε) * G) (A + B) (ar.sub a' b') (a - b) := by
  have hk := h.plus k.neg
  rw [← sub_eq_add_neg, ← sub_eq_add_neg] at hk
  exact hk.round hu.one_le (by rw [add_sub_cancel_left]; exact hu.sub a' b') hk.abs_le

theorem Accurate.near_mul (h : Near G A a' a) (k : Near G' B b' b) :
    Near ((1 + ε) * (G * G')) (A * B) (ar.mul a' b') (a * b) :=
  (h.times k).round hu.one_le (by rw [add_sub_cancel_left]; exact hu.mul a' b') (h.times k).abs_le

theorem Accurate.near_div (a : ℝ) {b : ℝ} (hb : b ≠ 0) : Near (1 + ε) |a / b| (ar.div a b) (a / b) :=
  ⟨hu.one_le, by rw [add_sub_cancel_left]; exact hu.div a b hb, le_rfl⟩

theorem Accurate.near_dot (n : ℕ) (u v : Fin n → ℝ) : Near (g n) (∑ i, |u i * v i|) (ar.dot n u v) (u ⬝ᵥ v) :=
  ⟨hu.g1 n, hu.dot n u v, Finset.abs_sum_le_sum_abs _ _⟩

theorem Accurate.near_mulAdd {C c' c : ℝ} (h : Near G A (a' * b') (a * b)) (k : Near G C c' c) :
    Near ((1 + ε) ^ 2 * G) (A + C) (ar.mulAdd a' b' c') (a * b + c) :=
  (h.plus k).round hu.one_le_sq (hu.mulAdd a' b' c') (by linarith [h.abs_le, k.abs_le])

theorem Accurate.near_lin2 {C c' c d' d : ℝ} (h : Near G A (a' * b') (a * b)) (k : Near G C (c' * d') (c * d)) :
    Near ((1 + ε) ^ 2 * G) (A + C) (ar.lin2 a' b' c' d') (a * b + c * d) :=
  (h.plus k).round hu.one_le_sq (hu.lin2 a' b' c' d') (by linarith [h.abs_le, k.abs_le])

/-- A stored literal is positive if the literal is. -/
theorem Accurate.lit_pos (h : 0 < a) : 0 < ar.lit a := by
  have h1 := hu.lit a
  rw [abs_le, abs_of_pos h] at h1
  nlinarith [h1.1, hu.eps1]

theorem Accurate.mul_pos (h : 0 < a) (k : 0 < b) : 0 < ar.mul a b := by
  have h1 := hu.mul a b
  have h2 := _root_.mul_pos h k
  rw [abs_le, abs_of_pos h2] at h1
  nlinarith [h1.1, hu.eps1]

end

/-! ### Instances -/

theorem accurate_exact (sq : ℝ → ℝ) : Accurate (Arith.exact sq) 0 (fun _ => 1) where
  eps0 := le_rfl
  eps1 := one_pos
  g1 := fun _ => le_rfl
  add a b := by simp [Arith.exact]
  sub a b := by simp [Arith.exact]
  mul a b := by simp [Arith.exact]
  div a b _ := by simp [Arith.exact]
  mulAdd a b c := by simp [Arith.exact]
  lin2 a b c d := by simp [Arith.exact]
  dot n a b := by simp [Arith.exact]
  lit a := by simp [Arith.exact]

theorem near_fl {fl : ℝ → ℝ} {u : ℝ} (hu0 : 0 ≤ u) (hfl : ∀ t, |fl t - t| ≤ u * |t|) (h : Near G A a' a) :
    Near ((1 + u) * G) A (fl a') a :=
  h.round (by linarith) (by rw [add_sub_cancel_left]; exact hfl a') h.abs_le

/-- A rounding function with relative error `u` gives an accurate arithmetic. -/
theorem accurate_plain {fl : ℝ → ℝ} {u : ℝ} (hu0 : 0 ≤ u) (hu1 : u < 1) (hfl : ∀ t, |fl t - t| ≤ u * |t|) (sq : ℝ → ℝ) :
    Accurate (Arith.plain fl sq) u (fun n => (1 + u) ^ (n + 1)) where
  eps0 := hu0
  eps1 := hu1
  g1 := fun _ => one_le_pow₀ (by linarith)
  add a b := hfl _
  sub a b := hfl _
  mul a b := hfl _
  div a b _ := hfl _
  mulAdd a b c := by
    have h1 := near_fl hu0 hfl (Near.refl (a * b))
    have h2 := near_fl hu0 hfl (h1.plus ((Near.refl c).mono (G' := (1 + u) * 1) (by linarith)))
    have := h2.2.1
    rwa [mul_one, ← pow_two] at this
  lin2 a b c d := by
    have h1 := near_fl hu0 hfl (Near.refl (a * b))
    have h2 := near_fl hu0 hfl (h1.plus (near_fl hu0 hfl (Near.refl (c * d))))
    have := h2.2.1
    rwa [mul_one, ← pow_two] at this
  dot n a b := by
    have key : ∀ m (a b : Fin m → ℝ), Near ((1 + u) ^ (m + 1)) (∑ i, |a i * b i|)
        (Fin.foldl m (fun s i => fl (s + fl (a i * b i))) 0) (∑ i, a i * b i) := by
      intro m
      induction m with
      | zero => intro a b; simpa [Near] using hu0
      | succ m ih =>
        intro a b
        rw [Fin.foldl_succ_last, Fin.sum_univ_castSucc, Fin.sum_univ_castSucc, pow_succ']
        refine near_fl hu0 hfl ((ih _ _).plus ?_)
        refine (near_fl hu0 hfl (Near.refl _)).mono ?_
        rw [mul_one]
        exact le_self_pow₀ (by linarith) (by omega)
    exact (key n a b).2.1
  lit := hfl

/-- The same with products contracted into sums. -/
theorem accurate_contracted {fl : ℝ → ℝ} {u : ℝ} (hu0 : 0 ≤ u) (hu1 : u < 1) (hfl : ∀ t, |fl t - t| ≤ u * |t|) (sq : ℝ → ℝ) :
    Accurate (Arith.contracted fl sq) u (fun n => (1 + u) ^ (n + 1)) where
  eps0 := hu0
  eps1 := hu1
  g1 := fun _ => one_le_pow₀ (by linarith)
  add a b := hfl _
  sub a b := hfl _
  mul a b := hfl _
  div a b _ := hfl _
  mulAdd a b c := by
    have h2 := near_fl hu0 hfl ((Near.refl (a * b)).plus (Near.refl c))
    have h3 := (h2.mono (G' := (1 + u) ^ 2) (by nlinarith)).2.1
    exact h3
  lin2 a b c d := by
    have h1 := near_fl hu0 hfl (Near.refl (c * d))
    have h2 := near_fl hu0 hfl (((Near.refl (a * b)).mono (G' := (1 + u) * 1) (by linarith)).plus h1)
    have := h2.2.1
    rwa [mul_one, ← pow_two] at this
  dot n a b := by
    have key : ∀ m (a b : Fin m → ℝ), Near ((1 + u) ^ (m + 1)) (∑ i, |a i * b i|)
        (Fin.foldl m (fun s i => fl (s + a i * b i)) 0) (∑ i, a i * b i) := by
      intro m
      induction m with
      | zero => intro a b; simpa [Near] using hu0
      | succ m ih =>
        intro a b
        rw [Fin.foldl_succ_last, Fin.sum_univ_castSucc, Fin.sum_univ_castSucc, pow_succ']
        refine near_fl hu0 hfl ((ih _ _).plus ?_)
        exact (Near.refl _).mono (one_le_pow₀ (by linarith))
    exact (key n a b).2.1
  lit := hfl

/-- Rounding to `p` binary digits after the leading one has relative error at most `2^-(p+1)`. -/
theorem roundBits_error (p : ℕ) (t : ℝ) : |roundBits p t - t| ≤ (1 / 2 ^ (p + 1)) * |t| := by
  by_cases ht : t = 0
  · simp [ht, roundBits]
  have hpos : 0 < |t| := abs_pos.mpr ht
  set e : ℝ := 2 ^ (Int.log 2 |t| - p) with he
  have hepos : 0 < e := zpow_pos (by norm_num) _
  have h1 : (2 : ℝ) ^ Int.log 2 |t| ≤ |t| := by
    have := Int.zpow_log_le_self (b := 2) (by norm_num) hpos
    exact_mod_cast this
  have h2 : roundBits p t - t = (round (t / e) - t / e) * e := by
    rw [roundBits, ← he, sub_mul, div_mul_cancel₀ _ hepos.ne']
  rw [h2, abs_mul, abs_of_pos hepos, abs_sub_comm]
  have h3 := mul_le_mul_of_nonneg_right (abs_sub_round (t / e)) hepos.le
  refine h3.trans ?_
  have h4 : e * 2 ^ p = 2 ^ Int.log 2 |t| := by
    rw [he, ← zpow_natCast, ← zpow_add₀ (by norm_num)]
    congr 1
    ring
  rw [← h4] at h1
  have h5 : e ≤ |t| / 2 ^ p := by rw [le_div_iff₀ (by positivity)]; exact h1
  calc (1 : ℝ) / 2 * e ≤ 1 / 2 * (|t| / 2 ^ p) := by linarith
    _ = 1 / 2 ^ (p + 1) * |t| := by rw [pow_succ]; field_simp

/-- Numbers that have that many digits are not changed. -/
theorem roundBits_exact (p : ℕ) {t : ℝ} (m : ℤ) (h : t = m * 2 ^ (Int.log 2 |t| - p)) : roundBits p t = t := by
  have hpos : (0 : ℝ) < 2 ^ (Int.log 2 |t| - p) := zpow_pos (by norm_num) _
  have h2 : t / 2 ^ (Int.log 2 |t| - p) = m := by rw [div_eq_iff hpos.ne']; exact h
  rw [roundBits, h2, round_intCast]
  exact h.symm

/-- The number found by `roundBits`, from the exponent and the nearest multiple. -/
theorem roundBits_eq (p : ℕ) {t : ℝ} (l n : ℤ) (h1 : 2 ^ l ≤ |t|) (h2 : |t| < 2 ^ (l + 1))
    (h : |t - n * 2 ^ (l - p)| < 2 ^ (l - p) / 2) : roundBits p t = n * 2 ^ (l - p) := by
  have ht : 0 < |t| := lt_of_lt_of_le (zpow_pos (by norm_num) _) h1
  have hl : Int.log 2 |t| = l := by
    apply le_antisymm
    · exact Int.lt_add_one_iff.mp ((Int.lt_zpow_iff_log_lt (b := 2) (by norm_num) ht).mp (by exact_mod_cast h2))
    · exact (Int.zpow_le_iff_le_log (b := 2) (by norm_num) ht).mp (by exact_mod_cast h1)
  have hpos : (0 : ℝ) < 2 ^ (l - p) := zpow_pos (by norm_num) _
  have hr : round (t / 2 ^ (l - p)) = n := by
    rw [round_eq, Int.floor_eq_iff]
    have e : t / 2 ^ (l - p) = n + (t - n * 2 ^ (l - p)) / 2 ^ (l - p) := by
      field_simp
      ring
    have b := abs_lt.mp h
    have b1 : -(1 / 2) < (t - n * 2 ^ (l - p)) / 2 ^ (l - p) := by rw [lt_div_iff₀ hpos]; linarith [b.1]
    have b2 : (t - n * 2 ^ (l - p)) / 2 ^ (l - p) < 1 / 2 := by rw [div_lt_iff₀ hpos]; linarith [b.2]
    rw [e]
    constructor <;> linarith
  rw [roundBits, hl, hr]

/-- A small number is lost in a sum with a power of two. -/
theorem roundBits_absorb (p k : ℕ) {δ : ℝ} (h0 : 0 ≤ δ) (h1 : δ < 2 ^ ((k : ℤ) - p - 2)) :
    roundBits p (2 ^ k + δ) = 2 ^ k ∧ roundBits p (δ - 2 ^ k) = -2 ^ k := by
  have e4 : (2 : ℝ) ^ ((k : ℤ) - p) = 4 * 2 ^ ((k : ℤ) - p - 2) := by
    rw [zpow_sub₀ (by norm_num) _ 2]; norm_num; ring
  have e2 : (2 : ℝ) ^ ((k : ℤ) - 1 - p) = 2 * 2 ^ ((k : ℤ) - p - 2) := by
    have : (k : ℤ) - 1 - p = (k - p - 2) + 1 := by ring
    rw [this, zpow_add₀ (by norm_num)]; norm_num; ring
  have ek : (2 : ℝ) ^ (k : ℤ) = 2 ^ k := zpow_natCast _ _
  have ek1 : (2 : ℝ) ^ ((k : ℤ) + 1) = 2 * 2 ^ k := by rw [zpow_add₀ (by norm_num), ek]; norm_num; ring
  have ekm : (2 : ℝ) ^ ((k : ℤ) - 1) = 2 ^ k / 2 := by rw [zpow_sub₀ (by norm_num), ek]; norm_num
  have hkp : (2 : ℝ) ^ ((k : ℤ) - p) ≤ 2 ^ k := by
    rw [← ek]; exact zpow_le_zpow_right₀ (by norm_num) (by omega)
  have hk0 : (0 : ℝ) < 2 ^ k := by positivity
  have hm : ((2 ^ p : ℤ) : ℝ) * 2 ^ ((k : ℤ) - p) = 2 ^ k := by
    push_cast
    rw [← zpow_natCast (2 : ℝ) p, ← zpow_add₀ (by norm_num), ← ek]
    congr 1; ring
  have hm2 : ((2 ^ (p + 1) : ℤ) : ℝ) * 2 ^ ((k : ℤ) - 1 - p) = 2 ^ k := by
    push_cast
    rw [← zpow_natCast (2 : ℝ) (p + 1), ← zpow_add₀ (by norm_num), ← ek]
    congr 1; push_cast; ring
  constructor
  · have := roundBits_eq p (t := 2 ^ k + δ) k (2 ^ p) (by rw [abs_of_nonneg (by positivity), ek]; linarith)
      (by rw [abs_of_nonneg (by positivity), ek1]; linarith)
      (by rw [hm]; have : (2 : ℝ) ^ k + δ - 2 ^ k = δ := by ring
          rw [this, abs_of_nonneg h0]; linarith)
    rw [this, hm]
  · rcases h0.eq_or_lt with h0 | h0
    · subst h0
      have := roundBits_eq p (t := 0 - 2 ^ k) k (-2 ^ p) (by rw [zero_sub, abs_neg, abs_of_pos hk0, ek])
        (by rw [zero_sub, abs_neg, abs_of_pos hk0, ek1]; linarith)
        (by have : ((-2 ^ p : ℤ) : ℝ) * 2 ^ ((k : ℤ) - p) = - 2 ^ k := by rw [← hm]; push_cast; ring
            rw [this]; simp; exact zpow_pos (by norm_num) _)
      rw [this, ← hm]; push_cast; ring
    · have ha : |δ - 2 ^ k| = 2 ^ k - δ := by rw [abs_sub_comm, abs_of_nonneg (by linarith)]
      have := roundBits_eq p (t := δ - 2 ^ k) ((k : ℤ) - 1) (-2 ^ (p + 1)) (by rw [ha, ekm]; linarith)
        (by rw [ha, sub_add_cancel, ek]; linarith)
        (by have : ((-2 ^ (p + 1) : ℤ) : ℝ) * 2 ^ ((k : ℤ) - 1 - p) = - 2 ^ k := by rw [← hm2]; push_cast; ring
            rw [this, sub_neg_eq_add, sub_add_cancel, abs_of_pos h0]; linarith)
      rw [this, ← hm2]; push_cast; ring

theorem unit_le (p : ℕ) : (0 : ℝ) ≤ 1 / 2 ^ (p + 1) ∧ (1 : ℝ) / 2 ^ (p + 1) < 1 := by
  refine ⟨by positivity, ?_⟩
  rw [div_lt_one (by positivity)]
  exact one_lt_pow₀ (by norm_num) (by omega)

/-- Binary floating-point arithmetic with unbounded exponents satisfies the assumptions, contracted or not. -/
theorem accurate_roundBits (p : ℕ) (sq : ℝ → ℝ) :
    Accurate (Arith.plain (roundBits p) sq) (1 / 2 ^ (p + 1)) (fun n => (1 + 1 / 2 ^ (p + 1)) ^ (n + 1)) ∧
    Accurate (Arith.contracted (roundBits p) sq) (1 / 2 ^ (p + 1)) (fun n => (1 + 1 / 2 ^ (p + 1)) ^ (n + 1)) :=
  ⟨accurate_plain (unit_le p).1 (unit_le p).2 (roundBits_error p) sq,
   accurate_contracted (unit_le p).1 (unit_le p).2 (roundBits_error p) sq⟩

end PolyMPC.Rounding
