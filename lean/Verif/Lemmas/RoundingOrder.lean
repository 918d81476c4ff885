import Verif.Lemmas.Rounding

/-!
# Rounding is monotone
-/

namespace PolyMPC.Rounding
open Matrix

theorem ordered_exact (sq : ℝ → ℝ) : Ordered (Arith.exact sq) Set.univ where
  one := trivial
  mul_mem _ _ := trivial
  mulAdd_mem _ _ _ := trivial
  sub_mono a b c h := by show a - c ≤ b - c; linarith
  mul_nonneg a b ha hb := mul_nonneg ha hb
  mul_le a b _ h1 hb _ := by show a * b ≤ b; nlinarith
  mulAdd_le a b c h _ := by show a * b + c ≤ c; linarith
  le_mulAdd a b c h _ := by show c ≤ a * b + c; linarith

variable {fl : ℝ → ℝ}

/-- Arithmetic that rounds by a monotone function, without contraction. -/
theorem ordered_plain (hm : Monotone fl) (hi : ∀ t, fl (fl t) = fl t) (h0 : fl 0 = 0) (h1 : fl 1 = 1) (sq : ℝ → ℝ) :
    Ordered (Arith.plain fl sq) {t | fl t = t} where
  one := h1
  mul_mem a b := hi _
  mulAdd_mem a b c := hi _
  sub_mono a b c h := hm (by linarith)
  mul_nonneg a b ha hb := by rw [← h0]; exact hm (mul_nonneg ha hb)
  mul_le a b ha h1 hb hF := by
    have : fl (a * b) ≤ fl b := hm (by nlinarith)
    rwa [Set.mem_ofPred_eq.mp hF] at this
  mulAdd_le a b c h hF := by
    have e : fl (a * b) ≤ 0 := by rw [← h0]; exact hm h
    have : fl (fl (a * b) + c) ≤ fl c := hm (by linarith)
    rwa [Set.mem_ofPred_eq.mp hF] at this
  le_mulAdd a b c h hF := by
    have e : 0 ≤ fl (a * b) := by rw [← h0]; exact hm h
    have : fl c ≤ fl (fl (a * b) + c) := hm (by linarith)
    rwa [Set.mem_ofPred_eq.mp hF] at this

/-- The same with contraction. -/
theorem ordered_contracted (hm : Monotone fl) (hi : ∀ t, fl (fl t) = fl t) (h0 : fl 0 = 0) (h1 : fl 1 = 1) (sq : ℝ → ℝ) :
    Ordered (Arith.contracted fl sq) {t | fl t = t} where
  one := h1
  mul_mem a b := hi _
  mulAdd_mem a b c := hi _
  sub_mono a b c h := hm (by linarith)
  mul_nonneg a b ha hb := by rw [← h0]; exact hm (mul_nonneg ha hb)
  mul_le a b ha h1 hb hF := by
    have : fl (a * b) ≤ fl b := hm (by nlinarith)
    rwa [Set.mem_ofPred_eq.mp hF] at this
  mulAdd_le a b c h hF := by
    have : fl (a * b + c) ≤ fl c := hm (by linarith)
    rwa [Set.mem_ofPred_eq.mp hF] at this
  le_mulAdd a b c h hF := by
    have : fl c ≤ fl (a * b + c) := hm (by linarith)
    rwa [Set.mem_ofPred_eq.mp hF] at this

/-- Powers of two are not changed. -/
theorem roundBits_zpow (p : ℕ) (k : ℤ) : roundBits p (2 ^ k) = 2 ^ k ∧ roundBits p (-2 ^ k) = -2 ^ k := by
  have hk : (0 : ℝ) < 2 ^ k := zpow_pos (by norm_num) _
  have hl : Int.log 2 (2 ^ k : ℝ) = k := by
    have := Int.log_zpow (R := ℝ) (b := 2) (by norm_num) k
    exact_mod_cast this
  have e : (2 : ℝ) ^ k = ((2 ^ p : ℤ) : ℝ) * 2 ^ (k - p) := by
    push_cast
    rw [← zpow_natCast (2 : ℝ) p, ← zpow_add₀ (by norm_num)]
    congr 1; ring
  constructor
  · exact roundBits_exact p (2 ^ p) (by rw [abs_of_pos hk, hl]; exact e)
  · refine roundBits_exact p (-2 ^ p) ?_
    rw [abs_neg, abs_of_pos hk, hl, e]
    push_cast; ring

/-- The result lies between the powers of two around the argument. -/
theorem roundBits_range (p : ℕ) {t : ℝ} (ht : 0 < t) :
    2 ^ Int.log 2 t ≤ roundBits p t ∧ roundBits p t ≤ 2 ^ (Int.log 2 t + 1) ∧
    -2 ^ (Int.log 2 t + 1) ≤ roundBits p (-t) ∧ roundBits p (-t) ≤ -2 ^ Int.log 2 t := by
  set l := Int.log 2 t with hl
  have hpos : (0 : ℝ) < 2 ^ (l - p) := zpow_pos (by norm_num) _
  have h1 : (2 : ℝ) ^ l ≤ t := by
    have := Int.zpow_log_le_self (b := 2) (by norm_num) ht
    exact_mod_cast this
  have h2 : t < (2 : ℝ) ^ (l + 1) := by
    have := Int.lt_zpow_succ_log_self (R := ℝ) (b := 2) (by norm_num) t
    exact_mod_cast this
  have e1 : (2 : ℝ) ^ l = ((2 ^ p : ℤ) : ℝ) * 2 ^ (l - p) := by
    push_cast
    rw [← zpow_natCast (2 : ℝ) p, ← zpow_add₀ (by norm_num)]
    congr 1; ring
  have e2 : (2 : ℝ) ^ (l + 1) = ((2 ^ (p + 1) : ℤ) : ℝ) * 2 ^ (l - p) := by
    push_cast
    rw [← zpow_natCast (2 : ℝ) (p + 1), ← zpow_add₀ (by norm_num)]
    congr 1; push_cast; ring
  have m : ∀ a b : ℝ, a ≤ b → ((round a : ℤ) : ℝ) ≤ round b := fun a b h => by
    rw [Int.cast_le, round_eq, round_eq]; exact Int.floor_mono (by linarith)
  have key : ∀ (s : ℝ) (k : ℤ), s / 2 ^ (l - p) ≤ k → ((round (s / 2 ^ (l - p)) : ℤ) : ℝ) * 2 ^ (l - p) ≤ k * 2 ^ (l - p) := fun s k h => by
    have := m _ _ h
    rw [round_intCast] at this
    exact mul_le_mul_of_nonneg_right this hpos.le
  have key' : ∀ (s : ℝ) (k : ℤ), (k : ℝ) ≤ s / 2 ^ (l - p) → (k : ℝ) * 2 ^ (l - p) ≤ ((round (s / 2 ^ (l - p)) : ℤ) : ℝ) * 2 ^ (l - p) := fun s k h => by
    have := m _ _ h
    rw [round_intCast] at this
    exact mul_le_mul_of_nonneg_right this hpos.le
  have r1 : roundBits p t = ((round (t / 2 ^ (l - p)) : ℤ) : ℝ) * 2 ^ (l - p) := by rw [roundBits, abs_of_pos ht]
  have r2 : roundBits p (-t) = ((round (-t / 2 ^ (l - p)) : ℤ) : ℝ) * 2 ^ (l - p) := by rw [roundBits, abs_neg, abs_of_pos ht]
  refine ⟨?_, ?_, ?_, ?_⟩
  · rw [r1, e1]; exact key' _ _ (by rw [le_div_iff₀ hpos, ← e1]; exact h1)
  · rw [r1, e2]; exact key _ _ (by rw [div_le_iff₀ hpos, ← e2]; exact h2.le)
  · have := key' (-t) (-2 ^ (p + 1)) (by rw [le_div_iff₀ hpos]; push_cast at e2 ⊢; linarith)
    rw [r2, e2]; push_cast at this ⊢; linarith
  · have := key (-t) (-2 ^ p) (by rw [div_le_iff₀ hpos]; push_cast at e1 ⊢; linarith)
    rw [r2, e1]; push_cast at this ⊢; linarith

theorem roundBits_zero (p : ℕ) : roundBits p 0 = 0 := by simp [roundBits]

theorem roundBits_mono (p : ℕ) : Monotone (roundBits p) := by
  intro s t hst
  have same : Int.log 2 |s| = Int.log 2 |t| → roundBits p s ≤ roundBits p t := fun h => by
    have hpos : (0 : ℝ) < 2 ^ (Int.log 2 |t| - p) := zpow_pos (by norm_num) _
    rw [roundBits, roundBits, h]
    refine mul_le_mul_of_nonneg_right ?_ hpos.le
    rw [Int.cast_le, round_eq, round_eq]
    refine Int.floor_mono ?_
    have := (div_le_div_iff_of_pos_right hpos).mpr hst
    linarith
  have zp : ∀ {a b : ℤ}, a ≤ b → (2 : ℝ) ^ a ≤ 2 ^ b := fun h => zpow_le_zpow_right₀ (by norm_num) h
  have z0 : ∀ a : ℤ, (0 : ℝ) < 2 ^ a := fun a => zpow_pos (by norm_num) _
  rcases lt_trichotomy s 0 with hs | rfl | hs
  · have rs := roundBits_range p (t := -s) (by linarith)
    rw [neg_neg] at rs
    have hs0 : roundBits p s ≤ 0 := rs.2.2.2.trans (by linarith [z0 (Int.log 2 (-s))])
    rcases lt_trichotomy t 0 with ht | rfl | ht
    · have rt := roundBits_range p (t := -t) (by linarith)
      rw [neg_neg] at rt
      have hl : Int.log 2 (-t) ≤ Int.log 2 (-s) := Int.log_mono_right (by linarith) (by linarith)
      rcases hl.eq_or_lt with e | e
      · exact same (by rw [abs_of_neg hs, abs_of_neg ht, e])
      · have := zp (show Int.log 2 (-t) + 1 ≤ Int.log 2 (-s) by omega)
        linarith [rs.2.2.2, rt.2.2.1]
    · rw [roundBits_zero]; exact hs0
    · exact hs0.trans ((z0 _).le.trans (roundBits_range p ht).1)
  · rw [roundBits_zero]
    rcases hst.eq_or_lt with rfl | ht
    · rw [roundBits_zero]
    · exact (z0 _).le.trans (roundBits_range p ht).1
  · have ht : 0 < t := by linarith
    have rs := roundBits_range p hs
    have rt := roundBits_range p ht
    have hl : Int.log 2 s ≤ Int.log 2 t := Int.log_mono_right hs hst
    rcases hl.eq_or_lt with e | e
    · exact same (by rw [abs_of_pos hs, abs_of_pos ht, e])
    · have := zp (show Int.log 2 s + 1 ≤ Int.log 2 t by omega)
      linarith [rs.2.1, rt.1]

theorem roundBits_idem (p : ℕ) (t : ℝ) : roundBits p (roundBits p t) = roundBits p t := by
  have z0 : ∀ a : ℤ, (0 : ℝ) < 2 ^ a := fun a => zpow_pos (by norm_num) _
  have key : ∀ t : ℝ, t ≠ 0 → ∀ r, r = roundBits p t → 2 ^ Int.log 2 |t| ≤ |r| → |r| ≤ 2 ^ (Int.log 2 |t| + 1) → roundBits p r = r := by
    intro t _ r hr h1 h2
    rcases h2.eq_or_lt with e | h2
    · rcases abs_choice r with h | h
      · rw [h] at e
        rw [e]; exact (roundBits_zpow p _).1
      · rw [h] at e
        have : r = -2 ^ (Int.log 2 |t| + 1) := by linarith
        rw [this]; exact (roundBits_zpow p _).2
    · have ht : 0 < |r| := lt_of_lt_of_le (z0 _) h1
      have hl : Int.log 2 |r| = Int.log 2 |t| := by
        apply le_antisymm
        · exact Int.lt_add_one_iff.mp ((Int.lt_zpow_iff_log_lt (b := 2) (by norm_num) ht).mp (by exact_mod_cast h2))
        · exact (Int.zpow_le_iff_le_log (b := 2) (by norm_num) ht).mp (by exact_mod_cast h1)
      exact roundBits_exact p (round (t / 2 ^ (Int.log 2 |t| - p))) (by rw [hl, hr, roundBits])
  rcases lt_trichotomy t 0 with ht | rfl | ht
  · have r := roundBits_range p (t := -t) (by linarith)
    rw [neg_neg] at r
    have hn : roundBits p t < 0 := lt_of_le_of_lt r.2.2.2 (by linarith [z0 (Int.log 2 (-t))])
    refine key t ht.ne _ rfl ?_ ?_
    · rw [abs_of_neg hn, abs_of_neg ht]; linarith [r.2.2.2]
    · rw [abs_of_neg hn, abs_of_neg ht]; linarith [r.2.2.1]
  · rw [roundBits_zero, roundBits_zero]
  · have r := roundBits_range p ht
    have hn : 0 < roundBits p t := lt_of_lt_of_le (z0 _) r.1
    refine key t ht.ne' _ rfl ?_ ?_
    · rw [abs_of_pos hn, abs_of_pos ht]; exact r.1
    · rw [abs_of_pos hn, abs_of_pos ht]; exact r.2.1

/-- Binary floating-point arithmetic with unbounded exponents satisfies the assumptions, contracted or not. -/
theorem ordered_roundBits (p : ℕ) (sq : ℝ → ℝ) :
    Ordered (Arith.plain (roundBits p) sq) {t | roundBits p t = t} ∧
    Ordered (Arith.contracted (roundBits p) sq) {t | roundBits p t = t} := by
  have h1 : roundBits p 1 = 1 := by simpa using (roundBits_zpow p 0).1
  exact ⟨ordered_plain (roundBits_mono p) (roundBits_idem p) (roundBits_zero p) h1 sq,
    ordered_contracted (roundBits_mono p) (roundBits_idem p) (roundBits_zero p) h1 sq⟩

end PolyMPC.Rounding
