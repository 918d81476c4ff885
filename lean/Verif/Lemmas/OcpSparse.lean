import Verif.Model.OcpSparse
import Verif.Lemmas.Sparse
import Verif.Lemmas.Ocp

/-! # Sparse transcription: sizes, patterns, ranks -/

namespace PolyMPC.Ocp
open AD Sparse Sparse.Csc

set_option linter.unusedSectionVars false
set_option linter.unusedVariables false

/-! ### Arithmetic -/

theorem blk_div {n b : ℕ} (k : ℕ) (hb : b < n) : (k * n + b) / n = k := by
  rw [Nat.mul_comm, Nat.mul_add_div (by omega), Nat.div_eq_of_lt hb, Nat.add_zero]

theorem blk_mod {n b : ℕ} (k : ℕ) (hb : b < n) : (k * n + b) % n = b := by
  rw [Nat.mul_comm, Nat.mul_add_mod, Nat.mod_eq_of_lt hb]

theorem loop_at {σ α : Type*} (get : σ → α) {f : ℕ → σ → σ} {n k : ℕ} (hk : k < n) (s : σ)
    (hoff : ∀ t < n, t ≠ k → ∀ s, get (f t s) = get s) : get (loop n f s) = get (f k (loop k f s)) ∧ get (loop k f s) = get s := by
  have hpre : ∀ m ≤ k, get (loop m f s) = get s := by
    intro m hm
    induction m with
    | zero => rfl
    | succ m ih => rw [loop_succ, hoff m (by omega) (by omega), ih (by omega)]
  refine ⟨?_, hpre k le_rfl⟩
  have hpost : ∀ m, k < m → m ≤ n → get (loop m f s) = get (f k (loop k f s)) := by
    intro m
    induction m with
    | zero => intro h; omega
    | succ m ih =>
      intro h1 h2
      rw [loop_succ]
      rcases Nat.lt_or_ge k m with h3 | h3
      · rw [hoff m (by omega) (by omega), ih h3 (by omega)]
      · have : m = k := by omega
        rw [this]
  exact hpost n hk le_rfl

/-! ### Sizes -/

section Sizes
variable (d : Dims)

theorem VAR_eq : d.VAR = d.VARX + d.VARU + d.NP := rfl

/-- A node at which two segments meet. -/
abbrev Junction (i : ℕ) : Prop := i ≠ 0 ∧ i ≠ d.NN - 1 ∧ i % d.N = 0

theorem eqNnz_x {t a : ℕ} (ht : t < d.NN) (ha : a < d.NX) :
    eqNnz d (t * d.NX + a) = d.NX + (d.N - 1) + (if Junction d t then d.N else 0) + (if d.NN ≤ t + (d.N + 1) then 1 else 0) := by
  have hx := xIdx_lt d ht ha
  have hin : t * d.NX ≤ t * d.NX + a ∧ t * d.NX + a < t * d.NX + d.NX := by omega
  unfold eqNnz
  dsimp only
  set z0 : ℕ → ℕ := setSeg (setSeg (fun _ => 0) 0 (d.VARX + d.VARU) fun _ => d.NX) (d.VAR - d.NP) d.NP fun _ => d.VARX with hz0
  have e0 : z0 (t * d.NX + a) = d.NX := by
    rw [hz0]
    unfold setSeg
    rw [if_neg (by rw [VAR_eq]; omega), if_pos (by omega)]
  set F : ℕ → (ℕ → ℕ) → ℕ → ℕ := fun i z =>
    let z := addSeg z (i * d.NX) d.NX fun _ => d.N - 1
    if i ≠ 0 ∧ i ≠ d.NN - 1 ∧ i % d.N = 0 then addSeg z (i * d.NX) d.NX fun _ => d.N else z with hF
  have hl := loop_at (fun z : ℕ → ℕ => z (t * d.NX + a)) (f := F) ht z0 (by
    intro i hi hne z
    have hout : ¬ (i * d.NX ≤ t * d.NX + a ∧ t * d.NX + a < i * d.NX + d.NX) := fun h => hne ((blk t i ha).1 h)
    simp only [hF]
    split_ifs
    · unfold addSeg; rw [if_neg hout, if_neg hout]
    · unfold addSeg; rw [if_neg hout])
  have e1 : loop d.NN F z0 (t * d.NX + a) = d.NX + (d.N - 1) + (if Junction d t then d.N else 0) := by
    rw [hl.1]
    have h2 := hl.2
    rw [e0] at h2
    generalize loop t F z0 = w at h2
    simp only [hF]
    by_cases hJ : Junction d t
    · rw [if_pos hJ, if_pos hJ]; unfold addSeg; rw [if_pos hin, if_pos hin, h2]
    · rw [if_neg hJ, if_neg hJ]; unfold addSeg; rw [if_pos hin, h2]; rfl
  have e2 : (d.NN - (d.N + 1)) * d.NX ≤ t * d.NX + a ↔ d.NN ≤ t + (d.N + 1) := by
    constructor
    · intro h
      by_contra hc
      have : (t + 1) * d.NX ≤ (d.NN - (d.N + 1)) * d.NX := Nat.mul_le_mul_right _ (by omega)
      rw [Nat.add_mul] at this; omega
    · intro h
      have : (d.NN - (d.N + 1)) * d.NX ≤ t * d.NX := Nat.mul_le_mul_right _ (by omega)
      omega
  have e3 : t * d.NX + a < (d.NN - (d.N + 1)) * d.NX + (d.N + 1) * d.NX := by
    rw [← Nat.add_mul]
    have := blk_le ha (show t < d.NN - (d.N + 1) + (d.N + 1) by omega)
    exact this
  unfold addSeg
  by_cases h : d.NN ≤ t + (d.N + 1)
  · rw [if_pos ⟨e2.2 h, e3⟩, if_pos h, e1]
  · rw [if_neg (fun hh : _ ∧ _ => h (e2.1 hh.1)), if_neg h, e1]; omega

theorem NN_VARX : (d.NN - (d.N + 1)) * d.NX + (d.N + 1) * d.NX = d.VARX ∨ d.S = 0 := by
  rcases Nat.eq_zero_or_pos d.S with h | h
  · exact Or.inr h
  · left
    rw [← Nat.add_mul]
    unfold Dims.VARX
    rw [Nat.mul_comm d.NX]
    congr 1
    have : 1 * d.N ≤ d.S * d.N := Nat.mul_le_mul_right _ h
    unfold Dims.NN; omega

/-- Columns that the differentiation matrix does not touch. -/
theorem eqNnz_rest (hS : 1 ≤ d.S) {c : ℕ} (hc : d.VARX ≤ c) (hV : c < d.VAR) :
    eqNnz d c = if c < d.VARX + d.VARU then d.NX else d.VARX := by
  unfold eqNnz
  dsimp only
  set z0 : ℕ → ℕ := setSeg (setSeg (fun _ => 0) 0 (d.VARX + d.VARU) fun _ => d.NX) (d.VAR - d.NP) d.NP fun _ => d.VARX with hz0
  have e0 : z0 c = if c < d.VARX + d.VARU then d.NX else d.VARX := by
    rw [hz0]
    unfold setSeg
    rw [VAR_eq] at hV ⊢
    split_ifs <;> first | rfl | omega
  have e1 := loop_none (fun z : ℕ → ℕ => z c) (f := fun i z =>
    let z := addSeg z (i * d.NX) d.NX fun _ => d.N - 1
    if i ≠ 0 ∧ i ≠ d.NN - 1 ∧ i % d.N = 0 then addSeg z (i * d.NX) d.NX fun _ => d.N else z) (n := d.NN) z0 (by
    intro i hi z
    have hf := (idx_facts d hi).1
    have hout : ¬ (i * d.NX ≤ c ∧ c < i * d.NX + d.NX) := by omega
    dsimp only
    split_ifs
    · unfold addSeg; rw [if_neg hout, if_neg hout]
    · unfold addSeg; rw [if_neg hout])
  have e2 : ¬ ((d.NN - (d.N + 1)) * d.NX ≤ c ∧ c < (d.NN - (d.N + 1)) * d.NX + (d.N + 1) * d.NX) := by
    rcases NN_VARX d with h | h <;> omega
  unfold addSeg at *
  rw [if_neg e2]
  exact e1.trans e0

theorem ineqNnz_eq {c : ℕ} (hV : c < d.VAR) : ineqNnz d c = if c < d.VARX + d.VARU then d.NG else d.NINEQ := by
  unfold ineqNnz setSeg
  dsimp only
  rw [VAR_eq] at hV ⊢
  split_ifs <;> first | rfl | omega

theorem hesNnz_eq {c : ℕ} (hV : c < d.VAR) : hesNnz d c = if c < d.VARX + d.VARU then d.NX + d.NU + d.NP else d.VAR := by
  unfold hesNnz setSeg
  dsimp only
  rw [VAR_eq] at hV ⊢
  split_ifs <;> first | rfl | omega

end Sizes

/-! ### Patterns -/

section Pattern
variable (d : Dims)

/-- The variables of node `t`: its states, its controls and the parameters. -/
def hitB (t c : ℕ) : Bool :=
  decide (t * d.NX ≤ c ∧ c < t * d.NX + d.NX) || (decide (t * d.NU + d.VARX ≤ c ∧ c < t * d.NU + d.VARX + d.NU) ||
    decide (d.VARX + d.VARU ≤ c ∧ c < d.VARX + d.VARU + d.NP))

theorem hitB_iff {t c : ℕ} (ht : t < d.NN) (hc : c < d.VAR) : hitB d t c = true ↔ ∃ i < d.M, nodeIdx d t i = c := by
  unfold hitB
  rw [Bool.or_eq_true, Bool.or_eq_true, decide_eq_true_eq, decide_eq_true_eq, decide_eq_true_eq]
  rcases idx_cases d ht hc with ⟨i, hi, e, e2⟩ | ⟨i, hi, e, e2⟩ | ⟨i, hi, e, e2⟩ | ⟨h1, h2, h3, h4⟩
  · exact ⟨fun _ => ⟨i, by unfold Dims.M; omega, e2⟩, fun _ => Or.inl (by omega)⟩
  · exact ⟨fun _ => ⟨d.NX + i, by unfold Dims.M; omega, e2⟩, fun _ => Or.inr (Or.inl (by omega))⟩
  · exact ⟨fun _ => ⟨d.NX + d.NU + i, by unfold Dims.M; omega, e2⟩, fun _ => Or.inr (Or.inr (by omega))⟩
  · refine ⟨fun h => ?_, fun ⟨i, hi, e⟩ => absurd e (h4 i hi)⟩
    rcases h with h | h | h
    · exact absurd h h1
    · exact absurd h h2
    · exact absurd h h3

theorem hitB_x {t t' a : ℕ} (ht : t < d.NN) (ht' : t' < d.NN) (ha : a < d.NX) : hitB d t' (t * d.NX + a) = decide (t' = t) := by
  have h1 := xIdx_lt d ht ha
  unfold hitB
  rw [decide_eq_false (p := t' * d.NU + d.VARX ≤ t * d.NX + a ∧ t * d.NX + a < t' * d.NU + d.VARX + d.NU) (by omega),
    decide_eq_false (p := d.VARX + d.VARU ≤ t * d.NX + a ∧ t * d.NX + a < d.VARX + d.VARU + d.NP) (by omega), Bool.or_false, Bool.or_false]
  exact decide_eq_decide.2 (blk t t' ha)

theorem hitB_u {t t' a : ℕ} (ht : t < d.NN) (ht' : t' < d.NN) (ha : a < d.NU) :
    hitB d t' (t * d.NU + d.VARX + a) = decide (t' = t) := by
  have h1 := uIdx_lt d ht ha
  have h2 := (idx_facts d ht').1
  unfold hitB
  rw [decide_eq_false (p := t' * d.NX ≤ t * d.NU + d.VARX + a ∧ t * d.NU + d.VARX + a < t' * d.NX + d.NX) (by omega),
    decide_eq_false (p := d.VARX + d.VARU ≤ t * d.NU + d.VARX + a ∧ t * d.NU + d.VARX + a < d.VARX + d.VARU + d.NP) (by omega),
    Bool.or_false, Bool.false_or]
  refine decide_eq_decide.2 ?_
  rw [← blk t t' ha]
  omega

theorem hitB_p {t' a : ℕ} (ha : a < d.NP) : hitB d t' (d.VARX + d.VARU + a) = true := by
  unfold hitB
  rw [decide_eq_true (p := d.VARX + d.VARU ≤ d.VARX + d.VARU + a ∧ d.VARX + d.VARU + a < d.VARX + d.VARU + d.NP) (by omega), Bool.or_true,
    Bool.or_true]

/-- Entries of a Jacobian with `n` rows per node. -/
def rowPat (n c r : ℕ) : Bool := decide (r < n * d.NN) && hitB d (r / n) c

theorem rowPat_at {n t b : ℕ} (ht : t < d.NN) (hb : b < n) (c : ℕ) : rowPat d n c (t * n + b) = hitB d t c := by
  unfold rowPat
  rw [blk_div t hb, decide_eq_true (by rw [Nat.mul_comm n]; exact blk_le hb ht), Bool.true_and]

theorem rowPat_lt {n c r : ℕ} (h : rowPat d n c r = true) : r < n * d.NN := by
  unfold rowPat at h
  rw [Bool.and_eq_true, decide_eq_true_eq] at h
  exact h.1

/-- A column is a state column, a control column or a parameter column. -/
theorem col_cases {c : ℕ} (hc : c < d.VAR) :
    (∃ t a, t < d.NN ∧ a < d.NX ∧ c = t * d.NX + a) ∨ (∃ t a, t < d.NN ∧ a < d.NU ∧ c = t * d.NU + d.VARX + a) ∨
    (∃ a < d.NP, c = d.VARX + d.VARU + a) := by
  rw [VAR_eq] at hc
  rcases Nat.lt_or_ge c d.VARX with h | h
  · obtain ⟨t, a, ht, ha, e⟩ := blk_split h
    exact Or.inl ⟨t, a, ht, ha, e⟩
  rcases Nat.lt_or_ge c (d.VARX + d.VARU) with h' | h'
  · obtain ⟨t, a, ht, ha, e⟩ := blk_split (show c - d.VARX < d.NU * d.NN by have : d.VARU = d.NU * d.NN := rfl; omega)
    exact Or.inr (Or.inl ⟨t, a, ht, ha, by omega⟩)
  · exact Or.inr (Or.inr ⟨c - (d.VARX + d.VARU), by omega, by omega⟩)

theorem rank_blocks (p : ℕ → Bool) (n : ℕ) (f : ℕ → ℕ) {m : ℕ} (hf : ∀ k < m, rank (fun b => p (k * n + b)) n = f k) :
    rank p (m * n) = ∑ k ∈ Finset.range m, f k := by
  induction m with
  | zero => rw [Nat.zero_mul, rank_zero]; rfl
  | succ m ih => rw [Nat.add_mul, Nat.one_mul, rank_add, ih fun k hk => hf k (by omega), hf m (by omega), Finset.sum_range_succ]

theorem sum_single (t n m : ℕ) : ∑ k ∈ Finset.range m, (if k = t then n else 0) = if t < m then n else 0 := by
  rw [Finset.sum_ite_eq' (Finset.range m) t fun _ => n]
  simp only [Finset.mem_range]

/-- Ranks in a state or control column. -/
theorem rank_rowPat_block {n c t : ℕ} (hh : ∀ t' < d.NN, hitB d t' c = decide (t' = t)) {m : ℕ} (hm : m ≤ d.NN) :
    rank (rowPat d n c) (m * n) = if t < m then n else 0 := by
  rw [rank_blocks (rowPat d n c) n (fun k => if k = t then n else 0), sum_single]
  intro k hk
  by_cases h : k = t
  · rw [if_pos h]
    exact rank_all fun b hb => by rw [rowPat_at d (by omega) hb, hh k (by omega)]; exact decide_eq_true h
  · rw [if_neg h]
    exact rank_none fun b hb => by rw [rowPat_at d (by omega) hb, hh k (by omega)]; exact decide_eq_false h

theorem rank_rowPat_p {n a r : ℕ} (ha : a < d.NP) (hr : r ≤ n * d.NN) : rank (rowPat d n (d.VARX + d.VARU + a)) r = r :=
  rank_all fun i hi => by
    unfold rowPat
    rw [hitB_p d ha, Bool.and_true]
    exact decide_eq_true (by omega)

/-- Total number of entries per column. -/
theorem rank_rowPat {n c : ℕ} (hc : c < d.VAR) :
    rank (rowPat d n c) (n * d.NN) = if c < d.VARX + d.VARU then n else n * d.NN := by
  rcases col_cases d hc with ⟨t, a, ht, ha, rfl⟩ | ⟨t, a, ht, ha, rfl⟩ | ⟨a, ha, rfl⟩
  · rw [Nat.mul_comm n, rank_rowPat_block d (fun t' ht' => hitB_x d ht ht' ha) le_rfl, if_pos ht]
    rw [if_pos (by have := xIdx_lt d ht ha; omega)]
  · rw [Nat.mul_comm n, rank_rowPat_block d (fun t' ht' => hitB_u d ht ht' ha) le_rfl, if_pos ht]
    rw [if_pos (by have := uIdx_lt d ht ha; omega)]
  · rw [rank_rowPat_p d ha le_rfl, if_neg (by omega)]

/-- Rank of an entry in its own block. -/
theorem rank_in_block {p : ℕ → Bool} {n t : ℕ} (h : ∀ b < n, p (t * n + b) = true) {b : ℕ} (hb : b ≤ n) :
    rank p (t * n + b) = rank p (t * n) + b := by
  rw [rank_add, rank_all fun i hi => h i (by omega)]

/-! ### Pattern of the equality Jacobian -/

/-- First row node of the differentiation matrix in column node `i`. -/
def lo (i : ℕ) : ℕ := (i - 1) / d.N * d.N
/-- One past the last row node. -/
def hi (i : ℕ) : ℕ := if d.S ≤ i / d.N + 1 then d.NN else (i / d.N + 1) * d.N

/-- Entries of the equality Jacobian. -/
def eqPat (c r : ℕ) : Bool :=
  rowPat d d.NX c r || (decide (c < d.VARX) && (decide (r < d.VARX) && (decide (r % d.NX = c % d.NX) &&
    decide (lo d (c / d.NX) ≤ r / d.NX ∧ r / d.NX < hi d (c / d.NX)))))

variable {d}

theorem mul_step {a b n : ℕ} (h : a < b) : a * n + n ≤ b * n := by
  have : (a + 1) * n ≤ b * n := Nat.mul_le_mul_right _ h
  rw [Nat.add_mul] at this; omega

theorem lo_hi (hN : 1 ≤ d.N) {i : ℕ} (hi' : i < d.NN) : lo d i ≤ i ∧ i < hi d i ∧ hi d i ≤ d.NN := by
  have h1 : (i - 1) / d.N * d.N ≤ i - 1 := Nat.div_mul_le_self _ _
  have h2 : i < (i / d.N + 1) * d.N := by rw [Nat.mul_comm]; exact Nat.lt_mul_div_succ i (by omega)
  unfold lo hi
  refine ⟨by omega, ?_, ?_⟩
  · split_ifs <;> omega
  · split_ifs with h
    · exact le_rfl
    · have : (i / d.N + 1) * d.N ≤ d.S * d.N := Nat.mul_le_mul_right _ (by omega)
      unfold Dims.NN; omega

/-- The number of rows of the differentiation matrix in a column is what the code reserves for it. -/
theorem hi_sub_lo (hS : 1 ≤ d.S) (hN : 1 ≤ d.N) {i : ℕ} (hi' : i < d.NN) :
    hi d i - lo d i = d.N + (if Junction d i then d.N else 0) + (if d.NN ≤ i + (d.N + 1) then 1 else 0) := by
  have hdm := Nat.div_add_mod i d.N
  have hml := Nat.mod_lt i (show d.N > 0 by omega)
  set q := i / d.N with hq
  set m := i % d.N with hm
  have hSN : (d.S - 1) * d.N + d.N = d.S * d.N := by
    rw [← Nat.succ_mul]; congr 1; omega
  rw [Nat.mul_comm] at hdm
  have hiNN : i ≤ d.S * d.N := by unfold Dims.NN at hi'; omega
  -- position of `i` relative to the last segment
  have hlast : d.NN ≤ i + (d.N + 1) ↔ d.S ≤ q + 1 := by
    unfold Dims.NN
    constructor
    · intro h
      by_contra hc
      have := mul_step (n := d.N) (show q + 1 < d.S by omega)
      rw [Nat.add_mul] at this; omega
    · intro h
      have : (d.S - 1) * d.N ≤ q * d.N := Nat.mul_le_mul_right _ (by omega)
      omega
  have hhi : hi d i = if d.S ≤ q + 1 then d.S * d.N + 1 else q * d.N + d.N := by
    unfold hi; rw [← hq, Nat.add_mul, Nat.one_mul]; rfl
  rcases Nat.eq_zero_or_pos m with h0 | h0
  · -- a multiple of N
    rcases Nat.eq_zero_or_pos q with hq0 | hq0
    · have i0 : i = 0 := by rw [hq0, Nat.zero_mul] at hdm; omega
      have hJ : ¬ Junction d i := fun h => h.1 i0
      have hlo : lo d i = 0 := by unfold lo; rw [i0]; simp
      rw [if_neg hJ, hhi, hlo, hq0]
      by_cases hl : d.NN ≤ i + (d.N + 1)
      · rw [if_pos hl, if_pos (by rw [hq0] at hlast; exact hlast.1 hl)]
        have : d.S = 1 := by have := hlast.1 hl; omega
        rw [this]; omega
      · rw [if_neg hl, if_neg (by rw [hq0] at hlast; exact fun h => hl (hlast.2 h))]; omega
    · have hlo : lo d i = q * d.N - d.N := by
        unfold lo
        have : (i - 1) / d.N = q - 1 := by
          have e : i - 1 = (q - 1) * d.N + (d.N - 1) := by
            have : q * d.N = (q - 1) * d.N + d.N := by conv_lhs => rw [show q = q - 1 + 1 by omega, Nat.add_mul, Nat.one_mul]
            omega
          rw [e, blk_div _ (by omega)]
        rw [this, Nat.sub_mul, Nat.one_mul]
      have hqN : d.N ≤ q * d.N := Nat.le_mul_of_pos_left _ hq0
      have hqS : q ≤ d.S := by
        by_contra hc
        have := mul_step (n := d.N) (show d.S < q by omega); omega
      rw [hhi, hlo]
      by_cases hqe : q = d.S
      · have hJ : ¬ Junction d i := fun h => h.2.1 (by unfold Dims.NN; rw [hqe] at hdm; omega)
        rw [if_neg hJ, if_pos (by omega), if_pos (hlast.2 (by omega)), hqe]
        rw [hqe] at hqN; omega
      · have hlt := mul_step (n := d.N) (show q < d.S by omega)
        have hJ : Junction d i := ⟨by omega, by unfold Dims.NN; omega, h0⟩
        rw [if_pos hJ]
        by_cases hl : d.NN ≤ i + (d.N + 1)
        · have := hlast.1 hl
          rw [if_pos hl, if_pos this]
          have e : q = d.S - 1 := by omega
          have e2 : q * d.N = (d.S - 1) * d.N := by rw [e]
          omega
        · rw [if_neg hl, if_neg (fun h => hl (hlast.2 h))]; omega
  · have hJ : ¬ Junction d i := fun h => by have := h.2.2; omega
    have hlo : lo d i = q * d.N := by
      unfold lo
      have : (i - 1) / d.N = q := by
        have e : i - 1 = q * d.N + (m - 1) := by omega
        rw [e, blk_div _ (by omega)]
      rw [this]
    have hqS : q < d.S := by
      by_contra hc
      have : d.S * d.N ≤ q * d.N := Nat.mul_le_mul_right _ (by omega)
      omega
    rw [if_neg hJ, hhi, hlo]
    by_cases hl : d.NN ≤ i + (d.N + 1)
    · have := hlast.1 hl
      rw [if_pos hl, if_pos this]
      have e : q = d.S - 1 := by omega
      have e2 : q * d.N = (d.S - 1) * d.N := by rw [e]
      omega
    · rw [if_neg hl, if_neg (fun h => hl (hlast.2 h))]; omega

theorem eqPat_x {t a k b : ℕ} (ht : t < d.NN) (ha : a < d.NX) (hk : k < d.NN) (hb : b < d.NX) :
    eqPat d (t * d.NX + a) (k * d.NX + b) = (decide (k = t) || (decide (b = a) && decide (lo d t ≤ k ∧ k < hi d t))) := by
  unfold eqPat
  rw [rowPat_at d hk hb, hitB_x d ht hk ha, decide_eq_true (xIdx_lt d ht ha), decide_eq_true (xIdx_lt d hk hb), blk_mod t ha, blk_mod k hb,
    blk_div t ha, blk_div k hb, Bool.true_and, Bool.true_and]

theorem eqPat_rest {c r : ℕ} (hc : d.VARX ≤ c) : eqPat d c r = rowPat d d.NX c r := by
  unfold eqPat
  rw [decide_eq_false (by omega), Bool.false_and, Bool.or_false]

theorem eqPat_lt {c r : ℕ} (h : eqPat d c r = true) : r < d.NEQ := by
  unfold eqPat at h
  rw [Bool.or_eq_true] at h
  rcases h with h | h
  · exact rowPat_lt d h
  · simp only [Bool.and_eq_true, decide_eq_true_eq] at h
    exact h.2.1

theorem rank_single {p : ℕ → Bool} {n a : ℕ} (ha : a < n) (h : ∀ b < n, p b = decide (b = a)) : rank p n = 1 := by
  have e : rank p n = rank (fun i => (fun _ => false) i || i == a) n := rank_congr fun i hi => by rw [h i hi, Bool.false_or]; rfl
  rw [e, rank_insert (fun _ => false) rfl, rank_none fun _ _ => rfl, if_pos ha]

/-- Ranks in a state column of the equality Jacobian. -/
theorem rank_eqPat_x (hN : 1 ≤ d.N) {t a : ℕ} (ht : t < d.NN) (ha : a < d.NX) {m : ℕ} (hm : m ≤ d.NN) :
    rank (eqPat d (t * d.NX + a)) (m * d.NX) = (min m (hi d t) - lo d t) + if t < m then d.NX - 1 else 0 := by
  obtain ⟨h1, h2, h3⟩ := lo_hi hN ht
  rw [rank_blocks (eqPat d (t * d.NX + a)) d.NX (fun k => if k = t then d.NX else if lo d t ≤ k ∧ k < hi d t then 1 else 0)]
  · clear hm
    induction m with
    | zero => simp
    | succ m ih =>
      rw [Finset.sum_range_succ, ih]
      split_ifs <;> omega
  · intro k hk
    by_cases h : k = t
    · rw [if_pos h]
      exact rank_all fun b hb => by rw [eqPat_x ht ha (by omega) hb, decide_eq_true h, Bool.true_or]
    · rw [if_neg h]
      by_cases h' : lo d t ≤ k ∧ k < hi d t
      · rw [if_pos h']
        exact rank_single ha fun b hb => by
          rw [eqPat_x ht ha (by omega) hb, decide_eq_false h, decide_eq_true h', Bool.false_or, Bool.and_true]
      · rw [if_neg h']
        exact rank_none fun b hb => by
          rw [eqPat_x ht ha (by omega) hb, decide_eq_false h, decide_eq_false h', Bool.false_or, Bool.and_false]

/-- **Reserved sizes.** The reserved number of non-zeros of every column is the number of entries of the pattern. -/
theorem eqNnz_rank (hS : 1 ≤ d.S) (hN : 1 ≤ d.N) {c : ℕ} (hc : c < d.VAR) : eqNnz d c = rank (eqPat d c) d.NEQ := by
  rcases Nat.lt_or_ge c d.VARX with h | h
  · obtain ⟨t, a, ht, ha, rfl⟩ := blk_split h
    obtain ⟨h1, h2, h3⟩ := lo_hi hN ht
    rw [eqNnz_x d ht ha, show d.NEQ = d.NN * d.NX from Nat.mul_comm _ _, rank_eqPat_x hN ht ha le_rfl, if_pos ht, Nat.min_eq_right h3,
      hi_sub_lo hS hN ht]
    omega
  · rw [eqNnz_rest d hS h hc, rank_congr fun i _ => eqPat_rest h, show d.NEQ = d.NX * d.NN from rfl, rank_rowPat d hc]
    rfl

theorem ineqNnz_rank {c : ℕ} (hc : c < d.VAR) : ineqNnz d c = rank (rowPat d d.NG c) d.NINEQ := by
  rw [ineqNnz_eq d hc, show d.NINEQ = d.NG * d.NN from rfl, rank_rowPat d hc]

end Pattern

end PolyMPC.Ocp
