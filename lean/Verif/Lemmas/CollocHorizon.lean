import Verif.Lemmas.CollocAccuracy
import Verif.Spec.Accuracy
import Verif.Props.CasCheb
import Mathlib.Topology.MetricSpace.Contracting

/-!
# Error of collocation on a horizon of several segments
-/

set_option linter.unusedSectionVars false

namespace PolyMPC.Colloc
open Polynomial Set Finset Spec CasCheb Ocp

variable {S N : ℕ} {t0 tf : ℝ}

/-- Start of segment `s`, counted from the end. -/
noncomputable def segStart (S : ℕ) (t0 tf : ℝ) (s : ℕ) : ℝ := tf - (s + 1) * ((tf - t0) / S)

theorem segStart_eq (hN : 1 ≤ N) (s : ℕ) : segTime S N t0 tf s N = segStart S t0 tf s := by
  rw [segTime_eq, (points_ends hN).2]
  unfold segStart
  ring

theorem points_inj {j k : ℕ} (hj : j < N) (hk : k < N) (h : points N j = points N k) : j = k := by
  have h2 : (⟨j, by omega⟩ : Fin (N + 1)) = ⟨k, by omega⟩ := Cheb.nodes_injective h
  exact Fin.mk.inj h2

theorem seg_inj (hS : 1 ≤ S) (h : t0 < tf) (s : ℕ) : Function.Injective fun j : Fin N => segTime S N t0 tf s j := by
  intro p q hpq
  have hH : (tf - t0) / S / 2 ≠ 0 := by
    have : (0 : ℝ) < S := by exact_mod_cast hS
    have := sub_pos.2 h
    positivity
  simp only [segTime_eq] at hpq
  exact Fin.ext (points_inj p.2 q.2 (mul_left_cancel₀ hH (add_right_cancel hpq)))

theorem seg_mem (_hS : 1 ≤ S) (h : t0 < tf) (s l : ℕ) : segTime S N t0 tf s l ∈ Icc (segStart S t0 tf s) (segStart S t0 tf s + (tf - t0) / S) := by
  have hH : 0 ≤ (tf - t0) / S := div_nonneg (by linarith) (Nat.cast_nonneg _)
  have c1 := Real.cos_le_one (l * (Real.pi / N))
  have c2 := Real.neg_one_le_cos (l * (Real.pi / N))
  unfold segTime segStart
  constructor <;> nlinarith

theorem seg_growth (hS : 1 ≤ S) (h : t0 < tf) (s : ℕ) :
    ∑ j : Fin N, ∏ k ∈ univ.erase j, ((tf - t0) / S) / |segTime S N t0 tf s j - segTime S N t0 tf s k| ≤ growth N := by
  refine le_of_eq ?_
  unfold growth
  refine Finset.sum_congr rfl fun j _ => Finset.prod_congr rfl fun k hk => ?_
  have hH : 0 < (tf - t0) / S := div_pos (by linarith) (by exact_mod_cast hS)
  have e : segTime S N t0 tf s j - segTime S N t0 tf s k = (Real.cos (j * (Real.pi / N)) - Real.cos (k * (Real.pi / N))) * ((tf - t0) / S / 2) := by
    unfold segTime; ring
  have hne : Real.cos (j * (Real.pi / N)) - Real.cos (k * (Real.pi / N)) ≠ 0 := sub_ne_zero.2 fun hc =>
    Finset.ne_of_mem_erase hk (Fin.ext (points_inj j.2 k.2 (by unfold points; exact hc))).symm
  rw [e, abs_mul, abs_of_pos (by positivity : 0 < (tf - t0) / S / 2)]
  have hc := abs_pos.2 hne
  generalize |Real.cos (j * (Real.pi / N)) - Real.cos (k * (Real.pi / N))| = c at hc ⊢
  generalize (tf - t0) / S = H at hH ⊢
  field_simp

theorem growth_nonneg (N : ℕ) : 0 ≤ growth N :=
  Finset.sum_nonneg fun j _ => Finset.prod_nonneg fun k _ => by positivity

/-- **The horizon.** `x k i` are the node states and `y` the exact solution; `r s` is the right-hand side along it on segment `s`; `Q s i` are the polynomials through the node states. -/
theorem horizon_cont {n : ℕ} (hS : 1 ≤ S) (hN : 1 ≤ N) (h : t0 < tf) {x : ℕ → ℕ → ℝ} {y : ℕ → ℝ → ℝ} {r : ℕ → ℕ → ℝ → ℝ} {L M ε e0 : ℝ} (hL0 : 0 ≤ L) (hε : 0 ≤ ε) (he0 : 0 ≤ e0) (hM0 : 0 ≤ M)
    (hz : (tf - t0) / S * growth N * L ≤ 1 / 2)
    (hy : ∀ s < S, SmoothSolution n N y (r s) (segStart S t0 tf s) (segStart S t0 tf s + (tf - t0) / S) M)
    (h0 : ∀ i < n, |x (S * N) i - y i t0| ≤ e0)
    {Q : ℕ → ℕ → ℝ[X]} (hc : ∀ s < S, ∀ i < n, (Q s i).natDegree ≤ N ∧ (∀ l ≤ N, (Q s i).eval (segTime S N t0 tf s l) = x (s * N + l) i) ∧
      ∀ j < N, ∀ B, (∀ i < n, |x (s * N + j) i - y i (segTime S N t0 tf s j)| ≤ B) → |(Q s i).derivative.eval (segTime S N t0 tf s j) - r s i (segTime S N t0 tf s j)| ≤ L * B + ε) :
    ∀ s < S, ∀ i < n, ∀ t ∈ Icc (segStart S t0 tf s) (segStart S t0 tf s + (tf - t0) / S), |(Q s i).eval t - y i t| ≤ errorBound N L M (tf - t0) ((tf - t0) / S) ε e0 := by
  obtain ⟨m, rfl⟩ : ∃ m, N = m + 1 := ⟨N - 1, by omega⟩
  set H := (tf - t0) / S with hH
  have hSr : (0 : ℝ) < S := by exact_mod_cast hS
  have hH0 : 0 < H := div_pos (by linarith) hSr
  have hg := growth_nonneg (m + 1)
  set δ := H * (growth (m + 1) * ε + (growth (m + 1) + 1) * (M * H ^ (m + 1) / m.factorial)) with hδ
  have hδ0 : 0 ≤ δ := by positivity
  have hz0 : 0 ≤ H * growth (m + 1) * L := by positivity
  -- one segment
  have step : ∀ s < S, ∀ e, 0 ≤ e → (∀ i < n, |x (s * (m + 1) + (m + 1)) i - y i (segTime S (m + 1) t0 tf s (m + 1))| ≤ e) →
      ∀ i < n, ∀ t ∈ Icc (segStart S t0 tf s) (segStart S t0 tf s + H), |(Q s i).eval t - y i t| ≤ (e + δ) / (1 - H * growth (m + 1) * L) := by
    intro s hs e he hstart i hi t ht
    have q1 := fun i : Fin n => (hc s hs i i.2).1
    have q2 := fun i : Fin n => (hc s hs i i.2).2.1
    have q3 := fun i : Fin n => (hc s hs i i.2).2.2
    have hsm := hy s hs
    exact segment (n := n) (seg_inj hS h s) hH0.le (fun j => seg_mem hS h s j) (seg_growth hS h s) (y := fun i => y i) (r := fun i => r s i) hL0 hε he hM0 (by linarith)
      (fun i => hsm.deriv i i.2) (fun i => by exact_mod_cast hsm.smooth i i.2) (fun i => hsm.bound i i.2) q1
      (fun i => by
        rw [← segStart_eq (N := m + 1) (by omega), q2 i (m + 1) le_rfl]
        exact hstart i i.2)
      (fun j i B hB => q3 i j j.2 B fun i' hi' => by
        have := hB ⟨i', hi'⟩
        rw [q2 ⟨i', hi'⟩ j j.2.le] at this
        exact this) ⟨i, hi⟩ t ht
  -- bound at the start of segment `S - 1 - k`
  have hq : 0 < 1 - H * growth (m + 1) * L := by linarith
  let E : ℕ → ℝ := fun k => Nat.rec e0 (fun _ e => (e + δ) / (1 - H * growth (m + 1) * L)) k
  have hE0 : ∀ k, 0 ≤ E k := by
    intro k
    induction k with
    | zero => exact he0
    | succ k ih => exact div_nonneg (add_nonneg ih hδ0) hq.le
  have hstart : ∀ k s, k + s + 1 = S → ∀ i < n, |x (s * (m + 1) + (m + 1)) i - y i (segTime S (m + 1) t0 tf s (m + 1))| ≤ E k := by
    intro k
    induction k with
    | zero =>
      intro s hs i hi
      have e1 : s * (m + 1) + (m + 1) = S * (m + 1) := by rw [← hs]; ring
      have e2 : segTime S (m + 1) t0 tf s (m + 1) = t0 := by
        rw [segStart_eq (by omega)]
        unfold segStart
        have : (s : ℝ) + 1 = S := by rw [← hs]; push_cast; ring
        rw [this]
        field_simp
        ring
      rw [e1, e2]
      exact h0 i hi
    | succ k ih =>
      intro s hs i hi
      have := step (s + 1) (by omega) (E k) (hE0 k) (ih (s + 1) (by omega)) i hi _ (seg_mem (N := m + 1) hS h (s + 1) 0)
      rw [(hc (s + 1) (by omega) i hi).2.1 0 (by omega), ← segTime_junction (by omega)] at this
      have e1 : (s + 1) * (m + 1) + 0 = s * (m + 1) + (m + 1) := by ring
      rw [e1] at this
      exact this
  intro s hs i hi t ht
  obtain ⟨k, hk⟩ : ∃ k, k + s + 1 = S := ⟨S - 1 - s, by omega⟩
  have h1 := step s hs (E k) (hE0 k) (hstart k s hk) i hi t ht
  have h2 : E (k + 1) ≤ Real.exp (2 * (H * growth (m + 1) * L) * (k + 1 : ℕ)) * (e0 + (k + 1 : ℕ) * δ) :=
    chain (S := k + 1) hδ0 hz0 hz he0 (fun s _ => le_rfl) (k + 1) le_rfl
  refine (h1.trans h2).trans ?_
  have hkS : ((k + 1 : ℕ) : ℝ) ≤ S := by exact_mod_cast (by omega : k + 1 ≤ S)
  have hHS : H * S = tf - t0 := by rw [hH]; field_simp
  unfold errorBound
  refine mul_le_mul (Real.exp_le_exp.2 ?_) ?_ (by positivity) (by positivity)
  · have : 2 * (H * growth (m + 1) * L) * (k + 1 : ℕ) ≤ 2 * (H * growth (m + 1) * L) * S := mul_le_mul_of_nonneg_left hkS (by positivity)
    refine this.trans (le_of_eq ?_)
    rw [← hHS]; ring
  · have : ((k + 1 : ℕ) : ℝ) * δ ≤ S * δ := mul_le_mul_of_nonneg_right hkS hδ0
    have e : (S : ℝ) * δ = (tf - t0) * (growth (m + 1) * ε + (growth (m + 1) + 1) * (M * H ^ (m + 1) / (m + 1 - 1).factorial)) := by
      rw [← hHS, hδ, Nat.add_sub_cancel]; ring
    linarith

/-- The same at the nodes. -/
theorem horizon {n : ℕ} (hS : 1 ≤ S) (hN : 1 ≤ N) (h : t0 < tf) {x : ℕ → ℕ → ℝ} {y : ℕ → ℝ → ℝ} {r : ℕ → ℕ → ℝ → ℝ} {L M ε e0 : ℝ} (hL0 : 0 ≤ L) (hε : 0 ≤ ε) (he0 : 0 ≤ e0) (hM0 : 0 ≤ M)
    (hz : (tf - t0) / S * growth N * L ≤ 1 / 2)
    (hy : ∀ s < S, SmoothSolution n N y (r s) (segStart S t0 tf s) (segStart S t0 tf s + (tf - t0) / S) M)
    (h0 : ∀ i < n, |x (S * N) i - y i t0| ≤ e0)
    (hc : ∀ s < S, ∀ i < n, ∃ Q : ℝ[X], Q.natDegree ≤ N ∧ (∀ l ≤ N, Q.eval (segTime S N t0 tf s l) = x (s * N + l) i) ∧
      ∀ j < N, ∀ B, (∀ i < n, |x (s * N + j) i - y i (segTime S N t0 tf s j)| ≤ B) → |Q.derivative.eval (segTime S N t0 tf s j) - r s i (segTime S N t0 tf s j)| ≤ L * B + ε) :
    ∀ s < S, ∀ l ≤ N, ∀ i < n, |x (s * N + l) i - y i (segTime S N t0 tf s l)| ≤ errorBound N L M (tf - t0) ((tf - t0) / S) ε e0 := by
  choose! Q hQ using hc
  intro s hs l hl i hi
  rw [← (hQ s hs i hi).2.1 l hl]
  exact horizon_cont hS hN h hL0 hε he0 hM0 hz hy h0 hQ s hs i hi _ (seg_mem hS h s l)

/-! ### Existence and uniqueness -/

/-- A polynomial with a given value and given values of the derivative at the nodes. -/
theorem poly_exists {m : ℕ} {v : Fin (m + 1) → ℝ} (hv : Function.Injective v) (a b : ℝ) (k : Fin (m + 1) → ℝ) :
    ∃ Q : ℝ[X], Q.natDegree ≤ m + 1 ∧ Q.eval a = b ∧ ∀ j, Q.derivative.eval (v j) = k j := by
  let R := Lagrange.interpolate univ v k
  have hR : R.natDegree ≤ m := by
    have := Lagrange.degree_interpolate_lt k (hv.injOn (s := ↑(univ : Finset (Fin (m + 1)))))
    rw [Finset.card_univ, Fintype.card_fin] at this
    exact natDegree_le_iff_coeff_eq_zero.2 fun p hp => (degree_lt_iff_coeff_zero _ _).1 this p (by omega)
  let P : ℝ[X] := ∑ i ∈ Finset.range (m + 1), C (R.coeff i / (i + 1)) * X ^ (i + 1)
  have hP : P.derivative = R := by
    conv_rhs => rw [R.as_sum_range' (m + 1) (by omega)]
    simp only [P, derivative_sum]
    refine Finset.sum_congr rfl fun i _ => ?_
    rw [derivative_C_mul, derivative_X_pow, Nat.add_sub_cancel, ← mul_assoc, ← C_mul, C_mul_X_pow_eq_monomial]
    congr 1
    push_cast
    have : (i : ℝ) + 1 ≠ 0 := by positivity
    field_simp
  refine ⟨P + C (b - P.eval a), ?_, ?_, fun j => ?_⟩
  · refine (natDegree_add_le _ _).trans (max_le (natDegree_sum_le_of_forall_le _ _ fun i hi => ?_) (by rw [natDegree_C]; omega))
    refine (natDegree_C_mul_X_pow_le _ _).trans ?_
    have := Finset.mem_range.1 hi
    omega
  · simp
  · rw [derivative_add, derivative_C, add_zero, hP]
    exact Lagrange.eval_interpolate_at_node k hv.injOn (Finset.mem_univ j)

/-- One segment: the collocation equations have a solution. -/
theorem seg_exists {n m : ℕ} {v : Fin (m + 1) → ℝ} (hv : Function.Injective v) {a h Lam L : ℝ} (hh : 0 ≤ h) (hm : ∀ j, v j ∈ Icc a (a + h))
    (hL : ∑ j, ∏ k ∈ univ.erase j, h / |v j - v k| ≤ Lam) (hL0 : 0 ≤ L) (hz : h * Lam * L < 1) {g : Fin (m + 1) → (Fin n → ℝ) → Fin n → ℝ}
    (hg : ∀ j x x' B, 0 ≤ B → (∀ i, |x i - x' i| ≤ B) → ∀ i, |g j x i - g j x' i| ≤ L * B) (x0 : Fin n → ℝ) :
    ∃ Q : Fin n → ℝ[X], (∀ i, (Q i).natDegree ≤ m + 1) ∧ (∀ i, (Q i).eval a = x0 i) ∧ ∀ i j, (Q i).derivative.eval (v j) = g j (fun i => (Q i).eval (v j)) i := by
  have hLam : 0 ≤ Lam := (Finset.sum_nonneg fun j _ => Finset.prod_nonneg fun k _ => div_nonneg hh (abs_nonneg _)).trans hL
  choose Q q1 q2 q3 using fun (K : Fin (m + 1) → Fin n → ℝ) (i : Fin n) => poly_exists hv a (x0 i) fun j => K j i
  let Φ : (Fin (m + 1) → Fin n → ℝ) → Fin (m + 1) → Fin n → ℝ := fun K j i => g j (fun i => (Q K i).eval (v j)) i
  have hΦ : ContractingWith (Real.toNNReal (h * Lam * L)) Φ := by
    refine ⟨Real.toNNReal_lt_one.2 hz, LipschitzWith.of_dist_le_mul fun K K' => ?_⟩
    rw [Real.coe_toNNReal _ (by positivity)]
    refine (dist_pi_le_iff (by positivity)).2 fun j => (dist_pi_le_iff (by positivity)).2 fun i => ?_
    rw [Real.dist_eq]
    have := hg j (fun i => (Q K i).eval (v j)) (fun i => (Q K' i).eval (v j)) (h * (Lam * dist K K')) (by positivity) (fun i => by
      have hgr := poly_growth hv hh hm hL (D := Q K i - Q K' i) ((natDegree_sub_le _ _).trans (max_le (q1 _ _) (q1 _ _))) (B := dist K K') dist_nonneg (fun j => by
        rw [derivative_sub, eval_sub, q3, q3, ← Real.dist_eq]
        exact (dist_le_pi_dist (K j) (K' j) i).trans (dist_le_pi_dist K K' j)) (v j) (hm j)
      rw [eval_sub, eval_sub, q2, q2, sub_self, sub_zero] at hgr
      exact hgr) i
    refine this.trans (le_of_eq ?_)
    ring
  have hfix := hΦ.fixedPoint_isFixedPt
  refine ⟨Q (ContractingWith.fixedPoint Φ hΦ), q1 _, q2 _, fun i j => ?_⟩
  rw [q3]
  exact (congrFun (congrFun hfix j) i).symm

/-- One segment: the collocation equations have at most one solution. -/
theorem seg_unique {n m : ℕ} {v : Fin (m + 1) → ℝ} (hv : Function.Injective v) {a h Lam L : ℝ} (hh : 0 ≤ h) (hm : ∀ j, v j ∈ Icc a (a + h))
    (hL : ∑ j, ∏ k ∈ univ.erase j, h / |v j - v k| ≤ Lam) (hL0 : 0 ≤ L) (hz : h * Lam * L < 1) {Q Q' : Fin n → ℝ[X]} (hQ : ∀ i, (Q i).natDegree ≤ m + 1)
    (hQ' : ∀ i, (Q' i).natDegree ≤ m + 1) (h0 : ∀ i, (Q i).eval a = (Q' i).eval a)
    (hg : ∀ j B, (∀ i, |(Q i).eval (v j) - (Q' i).eval (v j)| ≤ B) → ∀ i, |(Q i).derivative.eval (v j) - (Q' i).derivative.eval (v j)| ≤ L * B) :
    ∀ i j, (Q i).eval (v j) = (Q' i).eval (v j) := by
  have key : ∀ x : Fin n × Fin (m + 1), |(Q x.1).eval (v x.2) - (Q' x.1).eval (v x.2)| ≤ 0 / (1 - h * Lam * L) := by
    refine selfbound le_rfl hz fun B hB hb x => ?_
    have hgr := poly_growth hv hh hm hL (D := Q x.1 - Q' x.1) ((natDegree_sub_le _ _).trans (max_le (hQ _) (hQ' _))) (B := L * B) (by positivity) (fun j => by
      rw [derivative_sub, eval_sub]
      exact hg j B (fun i => hb (i, j)) x.1) (v x.2) (hm x.2)
    rw [eval_sub, eval_sub, h0, sub_self, sub_zero] at hgr
    refine hgr.trans (le_of_eq ?_)
    ring
  intro i j
  have := key (i, j)
  rw [zero_div] at this
  exact sub_eq_zero.1 (abs_eq_zero.1 (le_antisymm this (abs_nonneg _)))

/-- Start value and equations determine the collocation solution. -/
theorem collocates_unique {n : ℕ} (hS : 1 ≤ S) (hN : 1 ≤ N) {T : ℝ} (hT : 0 < T) {f : (ℕ → ℝ) → (ℕ → ℝ) → ℕ → ℝ} {Ω : Set (ℕ → ℝ)} {L : ℝ} (hL0 : 0 ≤ L) (hf : LipschitzIn n Ω f L)
    (hz : T / S * growth N * L < 1) {x x' u : ℕ → ℕ → ℝ} (hx : Collocates S N n f T x u) (hx' : Collocates S N n f T x' u) (hm : ∀ k ≤ S * N, x k ∈ Ω) (hm' : ∀ k ≤ S * N, x' k ∈ Ω)
    (h0 : ∀ i < n, x (S * N) i = x' (S * N) i) : ∀ k ≤ S * N, ∀ i < n, x k i = x' k i := by
  obtain ⟨m, rfl⟩ : ∃ m, N = m + 1 := ⟨N - 1, by omega⟩
  have hH : 0 ≤ (T - 0) / S := div_nonneg (by linarith) (Nat.cast_nonneg _)
  have step : ∀ s < S, (∀ i < n, x (s * (m + 1) + (m + 1)) i = x' (s * (m + 1) + (m + 1)) i) → ∀ l ≤ m + 1, ∀ i < n, x (s * (m + 1) + l) i = x' (s * (m + 1) + l) i := by
    intro s hs hst l hl i hi
    rcases Nat.lt_or_ge l (m + 1) with hl' | hl'
    swap
    · have : l = m + 1 := by omega
      rw [this]; exact hst i hi
    choose Q q1 q2 q3 using fun i : Fin n => hx s hs i i.2
    choose Q' q1' q2' q3' using fun i : Fin n => hx' s hs i i.2
    have hk : ∀ j < m + 1, s * (m + 1) + j ≤ S * (m + 1) := by
      intro j hj
      have : (s + 1) * (m + 1) ≤ S * (m + 1) := Nat.mul_le_mul_right _ hs
      rw [Nat.add_mul, Nat.one_mul] at this
      omega
    have key := seg_unique (seg_inj hS hT s) hH (fun j => seg_mem hS hT s j) (seg_growth hS hT s) hL0 (by rw [sub_zero]; exact hz) q1 q1' (fun i => by
        rw [← segStart_eq (N := m + 1) (by omega), q2 i _ le_rfl, q2' i _ le_rfl]
        exact hst i i.2)
      (fun j B hB i => by
        rw [q3 i j j.2, q3' i j j.2]
        refine hf _ (hm _ (hk j j.2)) _ (hm' _ (hk j j.2)) _ B (fun i' hi' => ?_) i i.2
        have := hB ⟨i', hi'⟩
        rw [q2 ⟨i', hi'⟩ j j.2.le, q2' ⟨i', hi'⟩ j j.2.le] at this
        exact this) ⟨i, hi⟩ ⟨l, hl'⟩
    rw [q2 ⟨i, hi⟩ l hl, q2' ⟨i, hi⟩ l hl] at key
    exact key
  have hstart : ∀ k s, k + s + 1 = S → ∀ i < n, x (s * (m + 1) + (m + 1)) i = x' (s * (m + 1) + (m + 1)) i := by
    intro k
    induction k with
    | zero =>
      intro s hs
      have e1 : s * (m + 1) + (m + 1) = S * (m + 1) := by rw [← hs]; ring
      rw [e1]; exact h0
    | succ k ih =>
      intro s hs i hi
      have := step (s + 1) (by omega) (ih (s + 1) (by omega)) 0 (by omega) i hi
      have e1 : (s + 1) * (m + 1) + 0 = s * (m + 1) + (m + 1) := by ring
      rw [e1] at this
      exact this
  intro k hk i hi
  rcases Nat.eq_or_lt_of_le hk with h | h
  · rw [h]; exact h0 i hi
  · have hs : k / (m + 1) < S := (Nat.div_lt_iff_lt_mul (by omega)).2 h
    have := step (k / (m + 1)) hs (hstart (S - 1 - k / (m + 1)) _ (by omega)) (k % (m + 1)) (Nat.mod_lt _ (by omega)).le i hi
    rwa [Nat.div_add_mod'] at this

/-- Every start value and all controls have a collocation solution. -/
theorem collocates_exists {n : ℕ} (hS : 1 ≤ S) (hN : 1 ≤ N) {T : ℝ} (hT : 0 < T) {f : (ℕ → ℝ) → (ℕ → ℝ) → ℕ → ℝ} {L : ℝ} (hL0 : 0 ≤ L) (hf : LipschitzIn n univ f L)
    (hz : T / S * growth N * L < 1) (x0 : ℕ → ℝ) (u : ℕ → ℕ → ℝ) : ∃ x, Collocates S N n f T x u ∧ ∀ i < n, x (S * N) i = x0 i := by
  obtain ⟨m, rfl⟩ : ∃ m, N = m + 1 := ⟨N - 1, by omega⟩
  have hH : 0 ≤ (T - 0) / S := div_nonneg (by linarith) (Nat.cast_nonneg _)
  -- states `p` as vectors
  let E : (Fin n → ℝ) → ℕ → ℝ := fun p i => if h : i < n then p ⟨i, h⟩ else 0
  have hE : ∀ p (i : Fin n), E p i = p i := fun p i => dif_pos i.2
  -- one segment
  have step : ∀ s (p : Fin n → ℝ), ∃ Q : Fin n → ℝ[X], (∀ i, (Q i).natDegree ≤ m + 1) ∧ (∀ i, (Q i).eval (segTime S (m + 1) 0 T s (m + 1)) = p i) ∧
      ∀ i (j : Fin (m + 1)), (Q i).derivative.eval (segTime S (m + 1) 0 T s j) = f (E fun i => (Q i).eval (segTime S (m + 1) 0 T s j)) (u (s * (m + 1) + j)) i := by
    intro s p
    rw [segStart_eq (by omega)]
    exact seg_exists (seg_inj hS hT s) hH (fun j => seg_mem hS hT s j) (seg_growth hS hT s) hL0 (by rw [sub_zero]; exact hz)
      (g := fun j x i => f (E x) (u (s * (m + 1) + j)) i) (fun j x x' B _ hB i => hf _ (mem_univ _) _ (mem_univ _) _ B (fun i' hi' => by
        have e1 := hE x ⟨i', hi'⟩
        have e2 := hE x' ⟨i', hi'⟩
        dsimp only at e1 e2
        rw [e1, e2]
        exact hB ⟨i', hi'⟩) i i.2) p
  choose Q q1 q2 q3 using step
  -- start value of segment `s`
  let st : ℕ → Fin n → ℝ := fun k => Nat.rec (fun i : Fin n => x0 i) (fun k p i => (Q (S - 1 - k) p i).eval (segTime S (m + 1) 0 T (S - 1 - k) 0)) k
  let P : ℕ → Fin n → ℝ := fun s => st (S - 1 - s)
  let x : ℕ → ℕ → ℝ := fun k => E fun i => if k = S * (m + 1) then x0 i else (Q (k / (m + 1)) (P (k / (m + 1))) i).eval (segTime S (m + 1) 0 T (k / (m + 1)) (k % (m + 1)))
  have hxE : ∀ k (i : Fin n), x k i = if k = S * (m + 1) then x0 i else (Q (k / (m + 1)) (P (k / (m + 1))) i).eval (segTime S (m + 1) 0 T (k / (m + 1)) (k % (m + 1))) := fun k i =>
    hE (fun i => if k = S * (m + 1) then x0 i else (Q (k / (m + 1)) (P (k / (m + 1))) i).eval (segTime S (m + 1) 0 T (k / (m + 1)) (k % (m + 1)))) i
  have hx : ∀ s < S, ∀ l ≤ m + 1, ∀ i : Fin n, x (s * (m + 1) + l) i = (Q s (P s) i).eval (segTime S (m + 1) 0 T s l) := by
    intro s hs l hl i
    rw [hxE]
    rcases Nat.lt_or_ge l (m + 1) with hl' | hl'
    · have hne : s * (m + 1) + l ≠ S * (m + 1) := by
        have : (s + 1) * (m + 1) ≤ S * (m + 1) := Nat.mul_le_mul_right _ hs
        rw [Nat.add_mul, Nat.one_mul] at this
        omega
      have e1 : (s * (m + 1) + l) / (m + 1) = s := by rw [Nat.add_comm, Nat.add_mul_div_right _ _ (by omega), Nat.div_eq_of_lt hl', Nat.zero_add]
      have e2 : (s * (m + 1) + l) % (m + 1) = l := by rw [Nat.add_comm, Nat.add_mul_mod_self_right, Nat.mod_eq_of_lt hl']
      rw [if_neg hne, e1, e2]
    · have hl2 : l = m + 1 := by omega
      subst hl2
      rw [q2]
      rcases Nat.eq_or_lt_of_le (Nat.succ_le_of_lt hs) with hs' | hs'
      · have e : s * (m + 1) + (m + 1) = S * (m + 1) := by rw [← hs', Nat.succ_eq_add_one]; ring
        rw [if_pos e]
        show _ = st (S - 1 - s) i
        have : S - 1 - s = 0 := by omega
        rw [this]
        rfl
      · have e : s * (m + 1) + (m + 1) = (s + 1) * (m + 1) + 0 := by ring
        have hne : (s + 1) * (m + 1) + 0 ≠ S * (m + 1) := by
          have : (s + 1 + 1) * (m + 1) ≤ S * (m + 1) := Nat.mul_le_mul_right _ hs'
          rw [Nat.add_mul, Nat.one_mul] at this
          omega
        rw [e, if_neg hne]
        have e1 : ((s + 1) * (m + 1) + 0) / (m + 1) = s + 1 := by rw [Nat.add_zero, Nat.mul_div_cancel _ (by omega)]
        have e2 : ((s + 1) * (m + 1) + 0) % (m + 1) = 0 := by rw [Nat.add_zero, Nat.mul_mod_left]
        rw [e1, e2]
        show _ = st (S - 1 - s) i
        obtain ⟨k, hk⟩ : ∃ k, S - 1 - s = k + 1 := ⟨S - 2 - s, by omega⟩
        rw [hk]
        have hk' : S - 1 - k = s + 1 := by omega
        show _ = (Q (S - 1 - k) (st k) i).eval (segTime S (m + 1) 0 T (S - 1 - k) 0)
        rw [hk']
        show (Q (s + 1) (st (S - 1 - (s + 1))) i).eval _ = _
        have : S - 1 - (s + 1) = k := by omega
        rw [this]
  refine ⟨x, fun s hs i hi => ⟨Q s (P s) ⟨i, hi⟩, q1 s _ _, fun l hl => (hx s hs l hl ⟨i, hi⟩).symm, fun j hj => ?_⟩, fun i hi => ?_⟩
  · rw [q3 s _ ⟨i, hi⟩ ⟨j, hj⟩]
    have : (E fun i => (Q s (P s) i).eval (segTime S (m + 1) 0 T s j)) = x (s * (m + 1) + j) := by
      funext i'
      by_cases hi' : i' < n
      · rw [hx s hs j hj.le ⟨i', hi'⟩]
        exact dif_pos hi'
      · show dite _ _ _ = dite _ _ _
        rw [dif_neg hi', dif_neg hi']
    rw [← this]
  · exact (hxE (S * (m + 1)) ⟨i, hi⟩).trans (if_pos rfl)

/-- A smooth solution is smooth on every part of the interval. -/
theorem smooth_sub {n : ℕ} {y r : ℕ → ℝ → ℝ} {a b a' b' M : ℝ} (h : SmoothSolution n N y r a b M) (h1 : a ≤ a') (h2 : a' < b') (h3 : b' ≤ b) : SmoothSolution n N y r a' b' M := by
  have hsub : Icc a' b' ⊆ Icc a b := Icc_subset_Icc h1 h3
  refine ⟨fun i hi t ht => (h.deriv i hi t (hsub ht)).mono hsub, fun i hi => (h.smooth i hi).mono hsub, fun i hi t ht => ?_⟩
  have e : iteratedDerivWithin N (r i) (Icc a' b') t = iteratedDerivWithin N (r i) (Icc a b) t := by
    unfold iteratedDerivWithin
    rw [iteratedFDerivWithin_subset hsub (uniqueDiffOn_Icc h2) (uniqueDiffOn_Icc (by linarith)) (h.smooth i hi) ht]
  rw [e]
  exact h.bound i hi t (hsub ht)

end PolyMPC.Colloc
