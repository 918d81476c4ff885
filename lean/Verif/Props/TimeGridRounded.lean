import Verif.Model.TimeGridRounded
import Verif.Lemmas.Rounding
import Verif.Props.Ocp

/-!
# Property C243: the time grid in floating-point arithmetic
-/

set_option linter.unusedSectionVars false

namespace PolyMPC.TimeR
open PolyMPC.Rounding PolyMPC.Ocp

variable {ar : Arith}

/-- Without rounding this is the grid of C37. -/
theorem timeGrid_exact (sq : ℝ → ℝ) (d : Dims) (A : Approx ℝ) (o : Obj d ℝ) (t0 tf : ℝ) :
    timeGrid (Arith.exact sq) d A.nodes t0 tf o.time = (setTimeLimits d A o t0 tf).time := by
  unfold timeGrid setTimeLimits
  have e : ∀ (i : ℕ) (τ : ℝ), nodeTime (Arith.exact sq) d.S t0 tf i τ =
      (tf - t0) / d.S / 2 * τ + (t0 + (tf - t0) / d.S / 2 + (i : ℝ) * ((tf - t0) / d.S)) := by
    intro i τ
    simp only [nodeTime, segLength, Arith.exact]
    ring
  simp only [e]

/-- Which segment writes a node last: the later one where two segments meet. -/
theorem grid_value (d : Dims) (f : ℕ → ℕ → ℝ) (old : ℕ → ℝ) (S : ℕ) : ∀ i j, i < S → j ≤ d.N → (j < d.N ∨ i + 1 = S) →
    loop S (fun i tn => setSeg tn (i * d.N) (d.N + 1) fun j => f i j) old (i * d.N + j) = f i j := by
  induction S with
  | zero => intro i j hi; omega
  | succ S ih =>
    intro i j hi hj h
    rw [loop_succ]
    unfold setSeg
    rcases Nat.lt_or_ge i S with hiS | hiS
    · have hjN : j < d.N := by omega
      by_cases hin : S * d.N ≤ i * d.N + j
      · exfalso
        have : (i + 1) * d.N ≤ S * d.N := Nat.mul_le_mul_right _ hiS
        rw [Nat.add_mul, Nat.one_mul] at this
        omega
      · rw [if_neg (by omega)]
        exact ih i j hiS hj (Or.inl hjN)
    · have : i = S := by omega
      subst this
      rw [if_pos (by omega)]
      congr 1
      omega

/-- The entries of the grid, from the end of the horizon. -/
theorem timeGrid_value (d : Dims) (nodes : ℕ → ℝ) (t0 tf : ℝ) (old : ℕ → ℝ) {s j : ℕ} (hs : s < d.S) (hj : j ≤ d.N)
    (h : 0 < j ∨ s = 0) :
    timeGrid ar d nodes t0 tf old (s * d.N + j) = nodeTime ar d.S t0 tf (d.S - 1 - s) (nodes j) := by
  have e : d.NN - 1 - (s * d.N + j) = (d.S - 1 - s) * d.N + (d.N - j) := by
    have h1 : d.S = (d.S - 1 - s) + s + 1 := by omega
    have h3 : d.S * d.N = (d.S - 1 - s) * d.N + s * d.N + d.N := by
      conv_lhs => rw [h1]
      ring
    unfold Dims.NN
    omega
  unfold timeGrid
  rw [e, grid_value d (fun i j => nodeTime ar d.S t0 tf i (nodes (d.N - j))) old d.S _ _ (by omega) (by omega) (by omega)]
  congr 2
  omega

/-- Every index is of that form. -/
theorem grid_index (d : Dims) (hS : 1 ≤ d.S) (hN : 1 ≤ d.N) {k : ℕ} (hk : k < d.NN) :
    ∃ s j, s < d.S ∧ j ≤ d.N ∧ (0 < j ∨ s = 0) ∧ k = s * d.N + j := by
  obtain ⟨s, j, hs, hj, _, rfl⟩ := node_split d hS hN hk
  rcases Nat.eq_zero_or_pos j with rfl | h
  · rcases Nat.eq_zero_or_pos s with rfl | h'
    · exact ⟨0, 0, hs, hj, Or.inr rfl, rfl⟩
    · refine ⟨s - 1, d.N, by omega, le_rfl, Or.inl hN, ?_⟩
      obtain ⟨r, rfl⟩ : ∃ r, s = r + 1 := ⟨s - 1, by omega⟩
      simp only [Nat.add_sub_cancel]
      ring
  · exact ⟨s, j, hs, hj, Or.inl h, rfl⟩

/-- One entry, with operations accurate to `ε`. -/
theorem nodeTime_error {ε : ℝ} {g : ℕ → ℝ} (hu : Accurate ar ε g) {S i : ℕ} (hi : i < S) (t0 tf : ℝ) {τ : ℝ} (hτ : |τ| ≤ 1) :
    |nodeTime ar S t0 tf i τ - ((tf - t0) / S / 2 * τ + (t0 + (tf - t0) / S / 2 + i * ((tf - t0) / S)))| ≤
      ((1 + ε) ^ 8 - 1) * (|t0| + |tf - t0|) := by
  have hS : (0 : ℝ) < S := by exact_mod_cast Nat.lt_of_le_of_lt (Nat.zero_le _) hi
  have h1 := hu.one_le
  have quot : ∀ {G a' a c : ℝ}, c ≠ 0 → Near G |a| a' a → Near ((1 + ε) * G) |a / c| (ar.div a' c) (a / c) := by
    intro G a' a c hc h
    have hp : 0 < |c| := abs_pos.mpr hc
    have h2 : Near G |a / c| (a' / c) (a / c) := by
      refine ⟨h.1, ?_, le_rfl⟩
      rw [← sub_div, abs_div, abs_div, div_le_iff₀ hp]
      calc |a' - a| ≤ (G - 1) * |a| := h.2.1
        _ = (G - 1) * (|a| / |c|) * |c| := by field_simp
    exact h2.round h1 (by have := hu.div a' c hc; simpa using this) h2.abs_le
  have n0 : Near (1 + ε) |tf - t0| (ar.sub tf t0) (tf - t0) :=
    ⟨h1, by rw [add_sub_cancel_left]; exact hu.sub tf t0, le_rfl⟩
  have n1 := quot hS.ne' n0
  have n2 := quot (two_ne_zero) n1
  have pw : ∀ {m k : ℕ}, m ≤ k → (1 + ε) ^ m ≤ (1 + ε) ^ k := fun h => hu.pow_mono h
  have n1' : Near ((1 + ε) ^ 4) |(tf - t0) / S| (segLength ar S t0 tf) ((tf - t0) / S) :=
    n1.mono (by rw [← pow_two]; exact pw (by norm_num))
  have n2' : Near ((1 + ε) ^ 3) |(tf - t0) / S / 2| (ar.div (segLength ar S t0 tf) 2) ((tf - t0) / S / 2) :=
    n2.mono (le_of_eq (by ring))
  have n3 := hu.near_add ((Near.refl t0).mono (one_le_pow₀ h1)) n2'
  have n3' : Near ((1 + ε) ^ 4) (|t0| + |(tf - t0) / S / 2|) (ar.add t0 (ar.div (segLength ar S t0 tf) 2))
      (t0 + (tf - t0) / S / 2) := n3.mono (le_of_eq (by ring))
  have n4 := (Near.refl (i : ℝ)).times n1'
  rw [one_mul] at n4
  have n5 := hu.near_mulAdd n4 n3'
  have n5' := n5.mono (le_of_eq (by ring) : _ ≤ (1 + ε) ^ 6)
  have n6 := n2'.times (Near.refl τ)
  rw [mul_one] at n6
  have n7 := hu.near_mulAdd (n6.mono (pw (by norm_num : 3 ≤ 6))) n5'
  have e8 : (1 + ε) ^ 2 * (1 + ε) ^ 6 = (1 + ε) ^ 8 := by ring
  rw [e8] at n7
  have key := n7.2.1
  have e : (tf - t0) / S / 2 * τ + (t0 + (tf - t0) / S / 2 + i * ((tf - t0) / S)) =
      (tf - t0) / S / 2 * τ + (i * ((tf - t0) / S) + (t0 + (tf - t0) / S / 2)) := by ring
  rw [e]
  refine key.trans (mul_le_mul_of_nonneg_left ?_ (by have : 1 ≤ (1 + ε) ^ 8 := one_le_pow₀ h1; linarith))
  have hl : |(tf - t0) / S| = |tf - t0| / S := by rw [abs_div, abs_of_pos hS]
  have hl2 : |(tf - t0) / S / 2| = |tf - t0| / S / 2 := by rw [abs_div, hl, abs_of_pos (by norm_num : (0 : ℝ) < 2)]
  have hi0 : |(i : ℝ)| = i := abs_of_nonneg (Nat.cast_nonneg i)
  rw [hl2, hl, hi0]
  have hq : 0 ≤ |tf - t0| / S := by positivity
  have hi1 : (i : ℝ) + 1 ≤ S := by exact_mod_cast hi
  have hm : ((i : ℝ) + 1) * (|tf - t0| / S) ≤ |tf - t0| := by
    calc ((i : ℝ) + 1) * (|tf - t0| / S) ≤ S * (|tf - t0| / S) := mul_le_mul_of_nonneg_right hi1 hq
      _ = |tf - t0| := by field_simp
  have ht : |tf - t0| / S / 2 * |τ| ≤ |tf - t0| / S / 2 * 1 := mul_le_mul_of_nonneg_left hτ (by positivity)
  linarith

/-- The stored nodes of an approximation lie in `[-1, 1]`. -/
theorem nodes_abs {N : ℕ} {A : Approx ℝ} (hA : GoodNodes N A) {j : ℕ} (hj : j ≤ N) : |A.nodes j| ≤ 1 := by
  have up : ∀ j ≤ N, A.nodes j ≤ 1 := by
    intro j
    induction j with
    | zero => intro _; exact hA.first.le
    | succ j ih => intro h; exact (hA.anti j (by omega)).le.trans (ih (by omega))
  have dn : ∀ m ≤ N, -1 ≤ A.nodes (N - m) := by
    intro m
    induction m with
    | zero => intro _; exact hA.last.ge
    | succ m ih =>
      intro h
      have h1 := hA.anti (N - (m + 1)) (by omega)
      rw [show N - (m + 1) + 1 = N - m by omega] at h1
      exact (ih (by omega)).trans h1.le
  have := dn (N - j) (by omega)
  rw [show N - (N - j) = j by omega] at this
  exact abs_le.mpr ⟨this, up j hj⟩

/-- C243. Every node time is within eight roundings, of the size of the start time plus the horizon, of the time it should
have. The error does not shrink with the horizon: it is relative to the clock. -/
theorem time_error {ε : ℝ} {g : ℕ → ℝ} (hu : Accurate ar ε g) (d : Dims) (A : Approx ℝ) (hA : GoodNodes d.N A)
    (hS : 1 ≤ d.S) (o : Obj d ℝ) (t0 tf : ℝ) (old : ℕ → ℝ) {k : ℕ} (hk : k < d.NN) :
    |timeGrid ar d A.nodes t0 tf old k - (setTimeLimits d A o t0 tf).time k| ≤
      ((1 + ε) ^ 8 - 1) * (|t0| + |tf - t0|) := by
  obtain ⟨s, j, hs, hj, h, rfl⟩ := grid_index d hS (one_le_N hA) hk
  rw [timeGrid_value d A.nodes t0 tf old hs hj h, time_closed d A o t0 tf hA.first hA.last (by norm_num) hs hj]
  exact nodeTime_error hu (by omega) t0 tf (nodes_abs hA hj)

/-- C243. Where neighbouring nodes are further apart than twice the error, the computed times are in order. -/
theorem time_order {ε : ℝ} {g : ℕ → ℝ} (hu : Accurate ar ε g) (d : Dims) (A : Approx ℝ) (hA : GoodNodes d.N A)
    (hS : 1 ≤ d.S) (t0 tf : ℝ) (old : ℕ → ℝ) {s j : ℕ} (hs : s < d.S) (hj : j < d.N)
    (hgap : 2 * (((1 + ε) ^ 8 - 1) * (|t0| + |tf - t0|)) < (A.nodes j - A.nodes (j + 1)) * ((tf - t0) / d.S / 2)) :
    timeGrid ar d A.nodes t0 tf old (s * d.N + j + 1) < timeGrid ar d A.nodes t0 tf old (s * d.N + j) := by
  let o : Obj d ℝ := ⟨0, 0, fun _ => 0, fun _ => ⟨0, fun _ => 0⟩, fun _ => ⟨0, fun _ => 0⟩, ⟨0, fun _ => 0⟩,
    ⟨⟨0, fun _ => 0⟩, fun _ => ⟨0, fun _ => 0⟩⟩⟩
  have hb : s * d.N + j + 1 < d.NN := by
    have : (s + 1) * d.N ≤ d.S * d.N := Nat.mul_le_mul_right _ hs
    rw [Nat.add_mul, Nat.one_mul] at this
    unfold Dims.NN
    omega
  have h1 := abs_le.mp (time_error hu d A hA hS o t0 tf old (k := s * d.N + j) (by omega))
  have h2 := abs_le.mp (time_error hu d A hA hS o t0 tf old hb)
  rw [time_grid d A hA o t0 tf hs hj.le] at h1
  rw [show s * d.N + j + 1 = s * d.N + (j + 1) by ring, time_grid d A hA o t0 tf hs hj] at h2
  rw [show s * d.N + j + 1 = s * d.N + (j + 1) by ring]
  linarith [h1.1, h2.2]

/-! ## Nodes that coincide -/

theorem roundBits_two_zpow (p : ℕ) (z : ℤ) : roundBits p ((2 : ℝ) ^ z) = 2 ^ z := by
  have hz : (0 : ℝ) < 2 ^ z := zpow_pos (by norm_num) _
  have e : ((2 ^ p : ℤ) : ℝ) * 2 ^ (z - p) = 2 ^ z := by
    push_cast
    rw [← zpow_natCast, ← zpow_add₀ (by norm_num)]
    congr 1; ring
  have := roundBits_eq p (t := (2 : ℝ) ^ z) z (2 ^ p) (by rw [abs_of_pos hz])
    (by rw [abs_of_pos hz]; exact zpow_lt_zpow_right₀ (by norm_num) (by omega))
    (by rw [e, sub_self, abs_zero]; exact div_pos (zpow_pos (by norm_num) _) (by norm_num))
  rw [this, e]

/-- A number less than a quarter of the spacing is lost next to a power of two, on either side. -/
theorem roundBits_absorb_both (p k : ℕ) {δ : ℝ} (h : |δ| < 2 ^ ((k : ℤ) - p - 2)) : roundBits p (2 ^ k + δ) = 2 ^ k := by
  rcases le_or_gt 0 δ with h0 | h0
  · rw [abs_of_nonneg h0] at h
    exact (roundBits_absorb p k h0 h).1
  · rw [abs_of_neg h0] at h
    have e2 : (2 : ℝ) ^ ((k : ℤ) - 1 - p) = 2 * 2 ^ ((k : ℤ) - p - 2) := by
      rw [show (k : ℤ) - 1 - p = 1 + ((k : ℤ) - p - 2) by ring, zpow_add₀ (by norm_num), zpow_one]
    have e1 : ((2 ^ (p + 1) : ℤ) : ℝ) * 2 ^ ((k : ℤ) - 1 - p) = 2 ^ k := by
      push_cast
      rw [← zpow_natCast, ← zpow_natCast, ← zpow_add₀ (by norm_num)]
      congr 1; push_cast; ring
    have hk : (2 : ℝ) ^ ((k : ℤ) - p - 2) ≤ 2 ^ ((k : ℤ) - 1) := zpow_le_zpow_right₀ (by norm_num) (by omega)
    have hk2 : (2 : ℝ) ^ k = 2 * 2 ^ ((k : ℤ) - 1) := by
      rw [← zpow_natCast, show (k : ℤ) = 1 + ((k : ℤ) - 1) by ring, zpow_add₀ (by norm_num), zpow_one]
      congr 2; ring
    have hpos : 0 < (2 : ℝ) ^ ((k : ℤ) - 1) := zpow_pos (by norm_num) _
    have ha : |(2 : ℝ) ^ k + δ| = 2 ^ k + δ := abs_of_pos (by rw [hk2]; linarith)
    have := roundBits_eq p (t := 2 ^ k + δ) ((k : ℤ) - 1) (2 ^ (p + 1)) (by rw [ha, hk2]; linarith)
      (by rw [ha, sub_add_cancel, zpow_natCast]; linarith)
      (by rw [e1, e2, add_sub_cancel_left, abs_of_neg h0]; linarith)
    rw [this, e1]

/-- C243. Nodes can coincide, in every precision: on a clock at `2^k`, with a horizon of one spacing of the numbers there
(both limits are numbers of the type), four segments and any approximation, all nodes of the first segment are at the start
time. In `float` with `k = 30` (a clock in seconds since 1970) this is a horizon of 128 seconds. -/
theorem time_collapse (p k : ℕ) (sq : ℝ → ℝ) {ar : Arith}
    (har : ar = Arith.plain (roundBits p) sq ∨ ar = Arith.contracted (roundBits p) sq) (d : Dims) (hS : d.S = 4)
    (A : Approx ℝ) (hA : GoodNodes d.N A) (old : ℕ → ℝ) {j : ℕ} (h0 : 0 < j) (hj : j ≤ d.N) :
    timeGrid ar d A.nodes (2 ^ k) (2 ^ k + 2 ^ ((k : ℤ) - p)) old (3 * d.N + j) = 2 ^ k := by
  rw [timeGrid_value d A.nodes _ _ old (by omega) hj (Or.inl h0), hS]
  set q : ℝ := 2 ^ ((k : ℤ) - p - 3) with hq
  have hqpos : 0 < q := zpow_pos (by norm_num) _
  have z : ∀ m : ℕ, m ≤ 3 → (2 : ℝ) ^ ((k : ℤ) - p - m) = 2 ^ (3 - m) * q := by
    intro m hm
    rw [hq, ← zpow_natCast, ← zpow_add₀ (by norm_num)]
    congr 1
    rw [Nat.cast_sub hm]; push_cast; ring
  have z0 : (2 : ℝ) ^ ((k : ℤ) - p) = 8 * q := by have := z 0 (by norm_num); norm_num at this; exact this
  have z2 : (2 : ℝ) ^ ((k : ℤ) - p - 2) = 2 * q := by have := z 2 (by norm_num); norm_num at this; exact this
  have r0 : roundBits p (8 * q) = 8 * q := by rw [← z0]; exact roundBits_two_zpow p _
  have r2 : roundBits p (2 * q) = 2 * q := by rw [← z2]; exact roundBits_two_zpow p _
  have r3 : roundBits p q = q := roundBits_two_zpow p _
  have rz : roundBits p 0 = 0 := by simp [roundBits]
  have rk : roundBits p (2 ^ k) = 2 ^ k := by
    have := roundBits_two_zpow p k
    rwa [zpow_natCast] at this
  have ab : ∀ δ : ℝ, |δ| < 2 * q → roundBits p (2 ^ k + δ) = 2 ^ k := fun δ h =>
    roundBits_absorb_both p k (by rw [z2]; exact h)
  have hτ := nodes_abs hA hj
  have sub : ∀ a : ℝ, 2 ^ k + a - 2 ^ k = a := fun a => by ring
  have hlen : roundBits p (roundBits p (2 ^ k + 2 ^ ((k : ℤ) - p) - 2 ^ k) / (4 : ℕ)) = 2 * q := by
    rw [sub, z0, r0, show 8 * q / ((4 : ℕ) : ℝ) = 2 * q by push_cast; ring, r2]
  have hsh : roundBits p (2 * q / 2) = q := by rw [show 2 * q / 2 = q by ring, r3]
  have hm : |q * A.nodes j| ≤ q := by
    rw [abs_mul, abs_of_pos hqpos]
    exact mul_le_of_le_one_right hqpos.le hτ
  have hb : roundBits p (2 ^ k + q) = 2 ^ k := ab q (by rw [abs_of_pos hqpos]; linarith)
  rcases har with rfl | rfl
  · simp only [nodeTime, segLength, Arith.plain]
    rw [hlen, hsh, hb]
    simp only [show 4 - 1 - 3 = 0 from rfl, Nat.cast_zero, zero_mul, rz, zero_add, rk]
    rw [add_comm]
    refine ab _ ?_
    have h1 := roundBits_error p (q * A.nodes j)
    have h2 : (1 : ℝ) / 2 ^ (p + 1) ≤ 1 / 2 := by
      have : (2 : ℝ) ^ 1 ≤ 2 ^ (p + 1) := pow_le_pow_right₀ (by norm_num) (by omega)
      rw [pow_one] at this
      exact one_div_le_one_div_of_le (by norm_num) this
    have h3 := mul_le_mul h2 hm (abs_nonneg _) (by norm_num)
    have h4 : |roundBits p (q * A.nodes j)| ≤ |roundBits p (q * A.nodes j) - q * A.nodes j| + |q * A.nodes j| := by
      have := abs_add_le (roundBits p (q * A.nodes j) - q * A.nodes j) (q * A.nodes j)
      rwa [sub_add_cancel] at this
    linarith
  · simp only [nodeTime, segLength, Arith.contracted]
    rw [hlen, hsh, hb]
    simp only [show 4 - 1 - 3 = 0 from rfl, Nat.cast_zero, zero_mul, zero_add, rk]
    rw [add_comm]
    exact ab _ (by linarith)

/-- Both limits of `time_collapse` are numbers of the type. -/
theorem time_collapse_limits (p k : ℕ) (hp : 2 ≤ p) :
    roundBits p (2 ^ k) = 2 ^ k ∧ roundBits p (2 ^ k + 2 ^ ((k : ℤ) - p)) = 2 ^ k + 2 ^ ((k : ℤ) - p) := by
  constructor
  · have := roundBits_two_zpow p k
    rwa [zpow_natCast] at this
  · have hpos : (0 : ℝ) < 2 ^ ((k : ℤ) - p) := zpow_pos (by norm_num) _
    have hlt : (2 : ℝ) ^ ((k : ℤ) - p) < 2 ^ (k : ℤ) := zpow_lt_zpow_right₀ (by norm_num) (by omega)
    have e : ((2 ^ p + 1 : ℤ) : ℝ) * 2 ^ ((k : ℤ) - p) = 2 ^ k + 2 ^ ((k : ℤ) - p) := by
      push_cast
      rw [add_mul, one_mul, ← zpow_natCast (2 : ℝ) p, ← zpow_add₀ (by norm_num), show (p : ℤ) + (k - p) = k by ring,
        zpow_natCast]
    have ha : |(2 : ℝ) ^ k + 2 ^ ((k : ℤ) - p)| = 2 ^ k + 2 ^ ((k : ℤ) - p) := abs_of_pos (by positivity)
    rw [zpow_natCast] at hlt
    have := roundBits_eq p (t := 2 ^ k + 2 ^ ((k : ℤ) - p)) k (2 ^ p + 1) (by rw [ha, zpow_natCast]; linarith)
      (by rw [ha, zpow_add₀ (by norm_num), zpow_natCast, zpow_one]; linarith)
      (by rw [e, sub_self, abs_zero]; linarith)
    rw [this, e]

/-- The case of the comment: `float`, a clock at `2^30` seconds, a horizon of 128 seconds, Chebyshev nodes. The first two
nodes coincide. -/
example (sq : ℝ → ℝ) (d : Dims) (hS : d.S = 4) (hN : 2 ≤ d.N) (old : ℕ → ℝ) :
    timeGrid (Arith.plain (roundBits 23) sq) d (chebApprox d.N).nodes (2 ^ 30) (2 ^ 30 + 128) old (3 * d.N + 1) =
      timeGrid (Arith.plain (roundBits 23) sq) d (chebApprox d.N).nodes (2 ^ 30) (2 ^ 30 + 128) old (3 * d.N + 2) := by
  have e : (2 : ℝ) ^ (((30 : ℕ) : ℤ) - (23 : ℕ)) = 128 := by norm_num
  have h1 := time_collapse 23 30 sq (Or.inl rfl) d hS (chebApprox d.N) (cheb_good (by omega)) old (j := 1) (by norm_num) (by omega)
  have h2 := time_collapse 23 30 sq (Or.inl rfl) d hS (chebApprox d.N) (cheb_good (by omega)) old (j := 2) (by norm_num) hN
  rw [e] at h1 h2
  rw [h1, h2]

/-- The hypothesis of `time_order` in `double`, for a horizon of one second, one segment, three nodes and a clock at zero. -/
example : 2 * (((1 + 1 / 2 ^ 53) ^ 8 - 1) * (|(0 : ℝ)| + |1 - 0|)) < (1 - 0) * ((1 - 0) / (1 : ℕ) / 2) := by
  norm_num

end PolyMPC.TimeR
