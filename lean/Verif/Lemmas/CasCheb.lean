import Verif.Lemmas.Ocp
import Verif.Model.CasCheb
import Verif.Props.Chebyshev

/-! # Symbolic Chebyshev transcription: closed forms -/

namespace PolyMPC.CasCheb
open Ocp

set_option linter.unusedSectionVars false

/-! ### The scheme is the one of `ebyshev.hpp` -/

section Scheme
open Real

theorem points_eq (N : ℕ) (i : Fin (N + 1)) : points N i = Cheb.nodes N i := rfl

theorem cVec_eq {N : ℕ} (i : Fin (N + 1)) : cVec N i = Cheb.cVec N i := by
  unfold cVec Cheb.cVec
  congr 1
  by_cases h0 : i.val = 0
  · rw [if_pos h0, if_pos (Or.inl h0)]
  · rw [if_neg h0]
    by_cases hN : i.val < N
    · rw [if_pos hN, if_neg (by omega)]
    · rw [if_neg hN, if_pos (by omega)]

theorem Dn_eq {N : ℕ} (i j : Fin (N + 1)) : Dn N i j = Cheb.Dn N i j := by
  unfold Dn Cheb.Dn
  rw [Matrix.of_apply, cVec_eq, cVec_eq, points_eq, points_eq, one_div, div_eq_mul_inv]
  congr 3
  by_cases h : i = j
  · rw [if_pos h, if_pos (by rw [h])]
  · rw [if_neg h, if_neg (fun e => h (Fin.ext e))]

theorem diffMatrix_eq {N : ℕ} (i j : Fin (N + 1)) : diffMatrix N i j = Cheb.diffMatrix N i j := by
  unfold diffMatrix Cheb.diffMatrix
  rw [Matrix.sub_apply, Dn_eq, Matrix.diagonal_apply]
  congr 1
  by_cases h : i = j
  · rw [if_pos h, if_pos (by rw [h]), Finset.sum_range]
    exact Finset.sum_congr rfl fun l _ => Dn_eq i l
  · rw [if_neg h, if_neg (fun e => h (Fin.ext e))]

theorem quadLoop_eq (θ : ℝ) (last : ℕ) : quadLoop θ last = Cheb.ccLoop θ last 1 := by
  unfold quadLoop Cheb.ccLoop
  induction last with
  | zero => rfl
  | succ n ih =>
    rw [loop_succ, ih, List.range_succ, List.foldl_append]
    show _ - _ = _ - _
    congr 1
    ring

theorem quadWeights_eq {N : ℕ} (i : Fin (N + 1)) : quadWeights N i = Cheb.intWeights N i := by
  unfold quadWeights Cheb.intWeights
  have hc : (1 ≤ i.val ∧ i.val < N) ↔ ¬ (i.val = 0 ∨ i.val = N) := by omega
  by_cases hp : N % 2 = 0
  · simp only [if_pos hp, quadLoop_eq]
    by_cases h : i.val = 0 ∨ i.val = N
    · rw [if_neg (fun e => hc.1 e h), if_pos h]
    · rw [if_pos (hc.2 h), if_neg h]; unfold Cheb.theta; ring
  · simp only [if_neg hp, quadLoop_eq]
    by_cases h : i.val = 0 ∨ i.val = N
    · rw [if_neg (fun e => hc.1 e h), if_pos h]
    · rw [if_pos (hc.2 h), if_neg h]; unfold Cheb.theta; ring

/-- The two Chebyshev schemes of the library agree. -/
theorem scheme_eq {N : ℕ} {i j : ℕ} (hi : i ≤ N) (hj : j ≤ N) :
    (scheme N).D i j = (chebApprox N).D i j ∧ (scheme N).nodes i = (chebApprox N).nodes i ∧ (scheme N).w i = (chebApprox N).w i := by
  have h1 : i < N + 1 := by omega
  have h2 : j < N + 1 := by omega
  refine ⟨?_, ?_, ?_⟩
  · show diffMatrix N i j = dite _ _ _
    rw [dif_pos ⟨h1, h2⟩]; exact diffMatrix_eq ⟨i, h1⟩ ⟨j, h2⟩
  · show points N i = dite _ _ _
    rw [dif_pos h1]; rfl
  · show quadWeights N i = dite _ _ _
    rw [dif_pos h1]; exact quadWeights_eq ⟨i, h1⟩

end Scheme

variable {K : Type} [Field K]

/-! ### Composite differentiation matrix -/

theorem compLoop (A : Approx K) (N : ℕ) (M0 : ℕ → ℕ → K) (n : ℕ) :
    ∀ s j, j < N → ∀ c, loop n (fun k M => setBlock M (k * N) (k * N) N (N + 1) A.D) M0 (s * N + j) c
      = if s < n then (if s * N ≤ c ∧ c < s * N + (N + 1) then A.D j (c - s * N) else M0 (s * N + j) c) else M0 (s * N + j) c := by
  induction n with
  | zero => intro s j hj c; rw [if_neg (by omega)]; rfl
  | succ n ih =>
    intro s j hj c
    rw [loop_succ]
    show ite _ _ _ = _
    have hb := blk s n hj
    by_cases h : n = s
    · subst h
      rw [if_pos (show n < n + 1 by omega)]
      by_cases hc : n * N ≤ c ∧ c < n * N + (N + 1)
      · rw [if_pos ⟨hb.2 rfl, hc⟩, if_pos hc, Nat.add_sub_cancel_left]
      · rw [if_neg (fun e => hc e.2), if_neg hc, ih n j hj c, if_neg (by omega)]
    · rw [if_neg (fun e => h (hb.1 e.1)), ih s j hj c]
      by_cases hs : s < n
      · rw [if_pos hs, if_pos (show s < n + 1 by omega)]
      · rw [if_neg hs, if_neg (by omega)]

theorem compLoop_last (A : Approx K) (N : ℕ) (M0 : ℕ → ℕ → K) (n c r : ℕ) (hr : n * N ≤ r) :
    loop n (fun k M => setBlock M (k * N) (k * N) N (N + 1) A.D) M0 r c = M0 r c := by
  induction n with
  | zero => rfl
  | succ n ih =>
    rw [loop_succ]
    show ite _ _ _ = _
    have h1 : (n + 1) * N = n * N + N := by rw [Nat.add_mul, Nat.one_mul]
    rw [if_neg (by omega), ih (by omega)]

/-- Row `j` of segment `s` of the composite matrix. -/
theorem compCore_closed (A : Approx K) {S N s j c : ℕ} (hs : s < S) (hj : j ≤ N) (hjs : j < N ∨ s + 1 = S) (hc : c < S * N + 1) :
    compCore A S N (s * N + j) c = if s * N ≤ c ∧ c < s * N + (N + 1) then A.D j (c - s * N) else 0 := by
  unfold compCore
  by_cases hS : S < 2
  · have : S = 1 := by omega
    have : s = 0 := by omega
    subst this
    rw [if_pos hS, if_pos (by subst S; omega), Nat.zero_mul, Nat.zero_add, Nat.sub_zero]
  · rw [if_neg hS]
    have e : S * N + 1 - (N + 1) = (S - 1) * N := by
      have : S * N = (S - 1) * N + N := by conv_lhs => rw [show S = S - 1 + 1 by omega, Nat.add_mul, Nat.one_mul]
      omega
    simp only [e]
    rcases Nat.lt_or_ge s (S - 1) with h | h
    · have hjN : j < N := by omega
      rw [compLoop A N _ (S - 1) s j hjN c, if_pos h]
      by_cases hcc : s * N ≤ c ∧ c < s * N + (N + 1)
      · rw [if_pos hcc, if_pos hcc]
      · rw [if_neg hcc, if_neg hcc]
        show ite _ _ _ = _
        have : (s + 1) * N ≤ (S - 1) * N := Nat.mul_le_mul_right _ h
        rw [Nat.add_mul, Nat.one_mul] at this
        rw [if_neg (by omega)]
    · have hs' : s = S - 1 := by omega
      rw [compLoop_last A N _ (S - 1) c _ (by rw [hs']; omega)]
      show ite _ _ _ = _
      rw [← hs']
      by_cases hcc : s * N ≤ c ∧ c < s * N + (N + 1)
      · rw [if_pos (by omega), if_pos hcc, Nat.add_sub_cancel_left]
      · rw [if_neg (by omega), if_neg hcc]

theorem sum_blocks' (n m : ℕ) (f : ℕ → K) : ∑ i ∈ Finset.range (m * n), f i = ∑ k ∈ Finset.range m, ∑ a ∈ Finset.range n, f (k * n + a) := by
  induction m with
  | zero => simp
  | succ m ih => rw [Nat.add_mul, Nat.one_mul, Finset.sum_range_add, ih, Finset.sum_range_succ]

/-- A Kronecker product with the identity acts on each component separately. -/
theorem kron_mulVec (M : ℕ → ℕ → K) {n i : ℕ} (hi : i < n) (k m : ℕ) (v : ℕ → K) :
    mulVec (kronEye M n) (m * n) v (k * n + i) = ∑ c ∈ Finset.range m, M k c * v (c * n + i) := by
  have hn : 0 < n := by omega
  have key : ∀ c a, a < n → (c * n + a) % n = a ∧ (c * n + a) / n = c := fun c a ha => by
    rw [Nat.add_comm, Nat.add_mul_mod_self_right, Nat.mod_eq_of_lt ha, Nat.add_mul_div_right _ _ hn, Nat.div_eq_of_lt ha]; omega
  unfold mulVec
  rw [sum_blocks' n m]
  refine Finset.sum_congr rfl fun c _ => ?_
  rw [Finset.sum_eq_single i]
  · unfold kronEye
    rw [(key k i hi).1, (key k i hi).2, (key c i hi).1, (key c i hi).2, if_pos rfl]
  · intro a ha hne
    unfold kronEye
    rw [(key k i hi).1, (key c a (Finset.mem_range.1 ha)).1, if_neg (fun e => hne e.symm), zero_mul]
  · intro h; exact absurd (Finset.mem_range.2 hi) h

theorem sum_window {S N s : ℕ} (hs : s < S) (f g : ℕ → K) :
    ∑ c ∈ Finset.range (S * N + 1), (if s * N ≤ c ∧ c < s * N + (N + 1) then f (c - s * N) else 0) * g c
      = ∑ l ∈ Finset.range (N + 1), f l * g (s * N + l) := by
  have h1 : s * N + (N + 1) ≤ S * N + 1 := by
    have : (s + 1) * N ≤ S * N := Nat.mul_le_mul_right _ hs
    rw [Nat.add_mul, Nat.one_mul] at this; omega
  obtain ⟨r, hr⟩ : ∃ r, S * N + 1 = s * N + (N + 1) + r := ⟨S * N + 1 - (s * N + (N + 1)), by omega⟩
  rw [hr, Finset.sum_range_add, Finset.sum_range_add]
  have z1 : ∑ c ∈ Finset.range (s * N), (if s * N ≤ c ∧ c < s * N + (N + 1) then f (c - s * N) else 0) * g c = 0 :=
    Finset.sum_eq_zero fun c hc => by rw [if_neg (by have := Finset.mem_range.1 hc; omega), zero_mul]
  have z2 : ∑ c ∈ Finset.range r, (if s * N ≤ s * N + (N + 1) + c ∧ s * N + (N + 1) + c < s * N + (N + 1) then
      f (s * N + (N + 1) + c - s * N) else 0) * g (s * N + (N + 1) + c) = 0 :=
    Finset.sum_eq_zero fun c _ => by rw [if_neg (by omega), zero_mul]
  rw [z1, z2, zero_add, add_zero]
  refine Finset.sum_congr rfl fun l hl => ?_
  have := Finset.mem_range.1 hl
  rw [if_pos (by omega), Nat.add_sub_cancel_left]

/-- Differentiation of stacked vectors with `n` components per node. -/
theorem compDiff_closed (A : Approx K) {S N n s j i : ℕ} (hs : s < S) (hj : j ≤ N) (hjs : j < N ∨ s + 1 = S) (hi : i < n) (v : ℕ → K) :
    mulVec (compDiff A S N n) ((S * N + 1) * n) v ((s * N + j) * n + i)
      = ∑ l ∈ Finset.range (N + 1), A.D j l * v ((s * N + l) * n + i) := by
  unfold compDiff
  rw [kron_mulVec _ hi]
  have : ∀ c ∈ Finset.range (S * N + 1), compCore A S N (s * N + j) c * v (c * n + i)
      = (if s * N ≤ c ∧ c < s * N + (N + 1) then A.D j (c - s * N) else 0) * v (c * n + i) := fun c hc => by
    rw [compCore_closed A hs hj hjs (Finset.mem_range.1 hc)]
  rw [Finset.sum_congr rfl this, sum_window hs (A.D j) fun c => v (c * n + i)]

/-! ### Stacked values -/

theorem segLoop (n m : ℕ) (f : ℕ → ℕ → K) (v0 : ℕ → K) {k i : ℕ} (hi : i < n) :
    loop m (fun k F => setSeg F (k * n) n (f k)) v0 (k * n + i) = if k < m then f k i else v0 (k * n + i) := by
  induction m with
  | zero => rw [if_neg (by omega)]; rfl
  | succ m ih =>
    rw [loop_succ]
    show ite _ _ _ = _
    have hb := blk k m hi
    by_cases h : m = k
    · rw [if_pos (hb.2 h), if_pos (show k < m + 1 by omega), ← h, Nat.add_sub_cancel_left]
    · rw [if_neg (fun e => h (hb.1 e)), ih]
      by_cases hk : k < m
      · rw [if_pos hk, if_pos (by omega)]
      · rw [if_neg hk, if_neg (by omega)]

theorem rhs_closed (d : Dims) (f : (Fin d.M → K) → ℕ → K) (t0 tf : K) (X U P : ℕ → K) {k i : ℕ} (hk : k < d.NN) (hi : i < d.NX) :
    rhs d f t0 tf X U P (k * d.NX + i) = tScale d t0 tf * f (nodeXU d X U P k) i := by
  unfold rhs
  rw [segLoop d.NX d.NN (fun k i => tScale d t0 tf * f (nodeXU d X U P k) i) _ hi, if_pos hk]

/-- Residual of node `j` of segment `s`. -/
theorem dynamics_closed (d : Dims) (A : Approx K) (f : (Fin d.M → K) → ℕ → K) (t0 tf : K) (X U P : ℕ → K) {s j i : ℕ} (hs : s < d.S)
    (hj : j ≤ d.N) (hjs : j < d.N ∨ s + 1 = d.S) (hi : i < d.NX) :
    collocateDynamics d A f t0 tf X U P ((s * d.N + j) * d.NX + i)
      = ∑ l ∈ Finset.range (d.N + 1), A.D j l * X ((s * d.N + l) * d.NX + i) - tScale d t0 tf * f (nodeXU d X U P (s * d.N + j)) i := by
  unfold collocateDynamics
  rw [rhs_closed d f t0 tf X U P (node_lt d hs hj) hi]
  have e : d.VARX = (d.S * d.N + 1) * d.NX := Nat.mul_comm _ _
  rw [e, compDiff_closed A hs hj hjs hi]

/-- `vertcat({m_X, m_U, m_P})`, generic_ocp.hpp:509. -/
def join (d : Dims) (X U P : ℕ → K) : ℕ → K := fun r =>
  if r < d.VARX then X r else if r < d.VARX + d.VARU then U (r - d.VARX) else P (r - d.VARX - d.VARU)

theorem node_join (d : Dims) (X U P : ℕ → K) {k : ℕ} (hk : k < d.NN) : node d (join d X U P) k = nodeXU d X U P k := by
  funext i
  have h := idx_facts d hk
  unfold node nodeXU join
  by_cases h1 : i.val < d.NX
  · rw [if_pos h1, if_pos h1, if_pos (by omega)]
  · rw [if_neg h1, if_neg h1]
    by_cases h2 : i.val < d.NX + d.NU
    · rw [if_pos h2, if_pos h2, if_neg (by omega), if_pos (by omega)]
      congr 1; omega
    · rw [if_neg h2, if_neg h2, if_neg (by omega), if_neg (by omega)]
      congr 1; omega

theorem sumLoop (n : ℕ) (f : ℕ → K) : loop n (fun i acc => acc + f i) 0 = ∑ i ∈ Finset.range n, f i := by
  induction n with
  | zero => rfl
  | succ n ih => rw [loop_succ, ih, Finset.sum_range_succ]

theorem lagrange_closed (d : Dims) (A : Approx K) (l : (Fin d.M → K) → K) (t0 tf : K) (X U P : ℕ → K) :
    lagrangePart d A l t0 tf X U P = ∑ s ∈ Finset.range d.S, tScale d t0 tf * ∑ m ∈ Finset.range (d.N + 1),
      A.w m * l (nodeXU d X U P (s * d.N + m)) := by
  unfold lagrangePart
  rw [sumLoop d.S]
  refine Finset.sum_congr rfl fun s _ => ?_
  rw [sumLoop (d.N + 1)]

theorem soft_closed (d : Dims) (A : Approx K) (f : (Fin d.M → K) → ℕ → K) (t0 tf : K) (X U P : ℕ → K) :
    softDynamics d A f t0 tf X U P = ∑ s ∈ Finset.range d.S, tScale d t0 tf * ∑ m ∈ Finset.range (d.N + 1),
      A.w m * ∑ i ∈ Finset.range d.NX, collocateDynamics d A f t0 tf X U P ((s * d.N + m) * d.NX + i) ^ 2 := by
  unfold softDynamics
  simp only []
  rw [sumLoop d.S (fun s => tScale d t0 tf * loop (d.N + 1) (fun m loc => loc + A.w m * ∑ i ∈ Finset.range d.NX,
    (mulVec (compDiff A d.S d.N d.NX) d.VARX X ((s * d.N + m) * d.NX + i) - tScale d t0 tf * f (nodeXU d X U P (s * d.N + m)) i)
    * (mulVec (compDiff A d.S d.N d.NX) d.VARX X ((s * d.N + m) * d.NX + i) - tScale d t0 tf * f (nodeXU d X U P (s * d.N + m)) i)) 0)]
  refine Finset.sum_congr rfl fun s hs => ?_
  rw [sumLoop (d.N + 1) (fun m => A.w m * ∑ i ∈ Finset.range d.NX,
    (mulVec (compDiff A d.S d.N d.NX) d.VARX X ((s * d.N + m) * d.NX + i) - tScale d t0 tf * f (nodeXU d X U P (s * d.N + m)) i)
    * (mulVec (compDiff A d.S d.N d.NX) d.VARX X ((s * d.N + m) * d.NX + i) - tScale d t0 tf * f (nodeXU d X U P (s * d.N + m)) i))]
  congr 1
  refine Finset.sum_congr rfl fun m hm => ?_
  congr 1
  refine Finset.sum_congr rfl fun i hi => ?_
  unfold collocateDynamics
  rw [rhs_closed d f t0 tf X U P (node_lt d (Finset.mem_range.1 hs) (by have := Finset.mem_range.1 hm; omega)) (Finset.mem_range.1 hi), sq]

/-! ### Several segments with own nodes -/

namespace MS

theorem compCore_closed (A : Approx K) {S N s j c : ℕ} (hs : s < S) (hj : j ≤ N) (hc : c < S * (N + 1)) :
    compCore A S N (s * (N + 1) + j) c = if s * (N + 1) ≤ c ∧ c < s * (N + 1) + (N + 1) then A.D j (c - s * (N + 1)) else 0 := by
  have e1 : (s * (N + 1) + j) / (N + 1) = s := by
    rw [Nat.add_comm, Nat.add_mul_div_right _ _ (Nat.succ_pos N), Nat.div_eq_of_lt (by omega), Nat.zero_add]
  have e2 : (s * (N + 1) + j) % (N + 1) = j := by rw [Nat.add_comm, Nat.add_mul_mod_self_right, Nat.mod_eq_of_lt (by omega)]
  unfold compCore
  by_cases hS : S < 2
  · have : S = 1 := by omega
    have : s = 0 := by omega
    subst this
    rw [if_pos hS, if_pos (by subst S; omega), Nat.zero_mul, Nat.zero_add, Nat.sub_zero]
  · rw [if_neg hS]
    simp only [e1, e2]
    have h2 : c % (N + 1) < N + 1 := Nat.mod_lt c (Nat.succ_pos N)
    have h1 : c = c / (N + 1) * (N + 1) + c % (N + 1) := by rw [Nat.mul_comm]; exact (Nat.div_add_mod c (N + 1)).symm
    have hb := blk (c / (N + 1)) s h2
    rw [← h1] at hb
    by_cases h : s = c / (N + 1)
    · rw [if_pos h, if_pos (hb.2 h)]
      congr 1; rw [h]; exact (Nat.sub_eq_of_eq_add' h1).symm
    · rw [if_neg h, if_neg fun e => h (hb.1 e)]

theorem sum_window {S N s : ℕ} (hs : s < S) (f g : ℕ → K) :
    ∑ c ∈ Finset.range (S * (N + 1)), (if s * (N + 1) ≤ c ∧ c < s * (N + 1) + (N + 1) then f (c - s * (N + 1)) else 0) * g c
      = ∑ l ∈ Finset.range (N + 1), f l * g (s * (N + 1) + l) := by
  rw [sum_blocks' (N + 1) S]
  rw [Finset.sum_eq_single s]
  · refine Finset.sum_congr rfl fun l hl => ?_
    have := Finset.mem_range.1 hl
    rw [if_pos (by omega), Nat.add_sub_cancel_left]
  · intro k _ hne
    refine Finset.sum_eq_zero fun l hl => ?_
    rw [if_neg, zero_mul]
    rw [blk k s (Finset.mem_range.1 hl)]
    exact fun e => hne e.symm
  · intro h; exact absurd (Finset.mem_range.2 hs) h

theorem compDiff_closed (A : Approx K) {S N n s j i : ℕ} (hs : s < S) (hj : j ≤ N) (hi : i < n) (v : ℕ → K) :
    mulVec (compDiff A S N n) (S * (N + 1) * n) v ((s * (N + 1) + j) * n + i)
      = ∑ l ∈ Finset.range (N + 1), A.D j l * v ((s * (N + 1) + l) * n + i) := by
  unfold compDiff
  rw [kron_mulVec _ hi]
  have : ∀ c ∈ Finset.range (S * (N + 1)), compCore A S N (s * (N + 1) + j) c * v (c * n + i)
      = (if s * (N + 1) ≤ c ∧ c < s * (N + 1) + (N + 1) then A.D j (c - s * (N + 1)) else 0) * v (c * n + i) := fun c hc => by
    rw [compCore_closed A hs hj (Finset.mem_range.1 hc)]
  rw [Finset.sum_congr rfl this, sum_window hs (A.D j) fun c => v (c * n + i)]

theorem segLoop2 (n N m : ℕ) (f : ℕ → ℕ → ℕ → K) (v0 : ℕ → K) {s j i : ℕ} (hj : j ≤ N) (hi : i < n) :
    loop m (fun a F => loop (N + 1) (fun b F => setSeg F ((a * (N + 1) + b) * n) n (f a b)) F) v0 ((s * (N + 1) + j) * n + i)
      = if s < m then f s j i else v0 ((s * (N + 1) + j) * n + i) := by
  have inner : ∀ a c (F : ℕ → K), loop c (fun b F => setSeg F ((a * (N + 1) + b) * n) n (f a b)) F ((s * (N + 1) + j) * n + i)
      = if a = s ∧ j < c ∨ (a * (N + 1) ≤ s * (N + 1) + j ∧ s * (N + 1) + j < a * (N + 1) + c) then
          f a (s * (N + 1) + j - a * (N + 1)) i else F ((s * (N + 1) + j) * n + i) := by
    intro a c F
    induction c with
    | zero => rw [if_neg (by omega)]; rfl
    | succ c ih =>
      rw [loop_succ]
      show ite _ _ _ = _
      have hb := blk (i := i) (s * (N + 1) + j) (a * (N + 1) + c) hi
      by_cases h : a * (N + 1) + c = s * (N + 1) + j
      · rw [if_pos (hb.2 h), if_pos (by omega), show s * (N + 1) + j - a * (N + 1) = c by omega, h, Nat.add_sub_cancel_left]
      · rw [if_neg (fun e => h (hb.1 e)), ih]
        by_cases h2 : a = s ∧ j < c ∨ (a * (N + 1) ≤ s * (N + 1) + j ∧ s * (N + 1) + j < a * (N + 1) + c)
        · rw [if_pos h2, if_pos (by omega)]
        · rw [if_neg h2, if_neg (by
            intro h3
            rcases h3 with h3 | h3
            · obtain ⟨h3, h4⟩ := h3
              subst h3; omega
            · omega)]
  induction m with
  | zero => rw [if_neg (by omega)]; rfl
  | succ m ih =>
    rw [loop_succ, inner, ih]
    by_cases h : m = s
    · subst h
      rw [if_pos (Or.inl ⟨rfl, by omega⟩), if_pos (by omega), Nat.add_sub_cancel_left]
    · rw [if_neg]
      · by_cases hs : s < m
        · rw [if_pos hs, if_pos (by omega)]
        · rw [if_neg hs, if_neg (by omega)]
      · rintro (h1 | h1)
        · exact h h1.1
        · exact h ((blk s m (show j < N + 1 by omega)).1 h1)

theorem off_eq (N n j i : ℕ) : j * (N + 1) * n + i * n = (j * (N + 1) + i) * n := (Nat.add_mul _ _ _).symm

theorem rhs_closed (d : Dims) (f : (Fin d.M → K) → ℕ → K) (t0 tf : K) (X U P : ℕ → K) {s j i : ℕ} (hs : s < d.S) (hj : j ≤ d.N)
    (hi : i < d.NX) : rhs d f t0 tf X U P ((s * (d.N + 1) + j) * d.NX + i) = tScale d t0 tf * f (nodeXU d X U P s j) i := by
  unfold rhs
  simp only [off_eq]
  rw [segLoop2 d.NX d.N d.S (fun a b i => tScale d t0 tf * f (nodeXU d X U P a b) i) _ hj hi, if_pos hs]

theorem gapLoop (d : Dims) (X G0 : ℕ → K) (m r : ℕ) :
    (r < xEnd d → loop m (fun j G => setSeg G (xEnd d + j * d.NX) d.NX fun i => X (j * (d.N + 1) * d.NX + d.N * d.NX + i)
      - X (j * (d.N + 1) * d.NX + d.N * d.NX + d.NX + i)) G0 r = G0 r) ∧
    (∀ k i, k < m → i < d.NX → r = xEnd d + (k * d.NX + i) →
      loop m (fun j G => setSeg G (xEnd d + j * d.NX) d.NX fun i => X (j * (d.N + 1) * d.NX + d.N * d.NX + i)
        - X (j * (d.N + 1) * d.NX + d.N * d.NX + d.NX + i)) G0 r
      = X ((k * (d.N + 1) + d.N) * d.NX + i) - X (((k + 1) * (d.N + 1)) * d.NX + i)) := by
  induction m with
  | zero => exact ⟨fun _ => rfl, fun k i hk => by omega⟩
  | succ m ih =>
    constructor
    · intro hr
      rw [loop_succ]
      show ite _ _ _ = _
      rw [if_neg (by omega)]; exact ih.1 hr
    · intro k i hk hi e
      rw [loop_succ]
      show ite _ _ _ = _
      have hb := blk (i := i) k m hi
      by_cases h : m = k
      · have := hb.2 h
        rw [if_pos (by omega)]
        subst h
        rw [show r - (xEnd d + m * d.NX) = i by omega, off_eq]
        have e2 : (m * (d.N + 1) + d.N) * d.NX + d.NX = (m + 1) * (d.N + 1) * d.NX := by ring
        rw [e2]
      · have : ¬ _ := fun x => h (hb.1 x)
        rw [if_neg (by omega)]
        exact ih.2 k i (by omega) hi e

theorem dynamics_closed (d : Dims) (A : Approx K) (f : (Fin d.M → K) → ℕ → K) (t0 tf : K) (X U P : ℕ → K) {s j i : ℕ} (hs : s < d.S)
    (hj : j ≤ d.N) (hi : i < d.NX) :
    collocateDynamics d A f t0 tf X U P ((s * (d.N + 1) + j) * d.NX + i)
      = ∑ l ∈ Finset.range (d.N + 1), A.D j l * X ((s * (d.N + 1) + l) * d.NX + i) - tScale d t0 tf * f (nodeXU d X U P s j) i := by
  have hr : (s * (d.N + 1) + j) * d.NX + i < xEnd d := blk_le hi (blk_le (by omega) hs)
  unfold collocateDynamics
  rw [(gapLoop d X _ (d.S - 1) _).1 hr, rhs_closed d f t0 tf X U P hs hj hi]
  have e : xEnd d = d.S * (d.N + 1) * d.NX := rfl
  rw [e, compDiff_closed A hs hj hi]

theorem gap_closed (d : Dims) (A : Approx K) (f : (Fin d.M → K) → ℕ → K) (t0 tf : K) (X U P : ℕ → K) {k i : ℕ} (hk : k + 1 < d.S)
    (hi : i < d.NX) : collocateDynamics d A f t0 tf X U P (xEnd d + (k * d.NX + i))
      = X ((k * (d.N + 1) + d.N) * d.NX + i) - X (((k + 1) * (d.N + 1)) * d.NX + i) :=
  (gapLoop d X _ (d.S - 1) _).2 k i (by omega) hi rfl

theorem cost_closed (d : Dims) (A : Approx K) (mayer : Option ((ℕ → K) → (ℕ → K) → K)) (l : (Fin d.M → K) → K) (t0 tf : K) (X U P : ℕ → K) :
    collocateCost d A mayer (some l) t0 tf X U P = (match mayer with | none => 0 | some m => m X P)
      + ∑ s ∈ Finset.range d.S, tScale d t0 tf * ∑ m ∈ Finset.range (d.N + 1), A.w m * l (nodeXU d X U P s m) := by
  unfold collocateCost
  congr 1
  show loop d.S _ 0 = _
  rw [sumLoop d.S]
  refine Finset.sum_congr rfl fun s _ => ?_
  rw [sumLoop (d.N + 1)]

end MS

end PolyMPC.CasCheb
