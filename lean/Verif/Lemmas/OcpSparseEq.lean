import Verif.Lemmas.OcpSparse

/-! # Sparse transcription: constraint Jacobians -/

namespace PolyMPC.Ocp
open AD Sparse Sparse.Csc

set_option linter.unusedSectionVars false
set_option linter.unusedVariables false

variable {K : Type} [Field K]

/-! ### Filling a Jacobian node by node -/

/-- The new entries of one node in a Jacobian with `n` rows per node. -/
def nodeIns (d : Dims) (n t : ℕ) (v : ℕ → ℕ → K) : List (ℕ × ℕ × K) :=
  (List.range n).flatMap fun j =>
    ((List.range d.NX).map fun m => (j + t * n, m + t * d.NX, v j m)) ++
    (((List.range d.NU).map fun m => (j + t * n, m + t * d.NU + d.VARX, v j (m + d.NX))) ++
     ((List.range d.NP).map fun m => (j + t * n, d.VARX + d.VARU + m, v j (d.NX + d.NU + m))))

theorem mem_nodeIns (d : Dims) {n t : ℕ} {v : ℕ → ℕ → K} {e : ℕ × ℕ × K} :
    e ∈ nodeIns d n t v ↔ ∃ j < n, ∃ i < d.M, e = (t * n + j, nodeIdx d t i, v j i) := by
  unfold nodeIns
  simp only [List.mem_flatMap, List.mem_append, List.mem_map, List.mem_range]
  constructor
  · rintro ⟨j, hj, h⟩
    refine ⟨j, hj, ?_⟩
    rcases h with ⟨m, hm, rfl⟩ | ⟨m, hm, rfl⟩ | ⟨m, hm, rfl⟩
    · refine ⟨m, by unfold Dims.M; omega, ?_⟩
      unfold nodeIdx; rw [if_pos hm, Nat.add_comm j, Nat.add_comm m]
    · refine ⟨m + d.NX, by unfold Dims.M; omega, ?_⟩
      unfold nodeIdx
      rw [if_neg (by omega), if_pos (by omega), Nat.add_comm j, Nat.add_sub_cancel, Nat.add_assoc m, Nat.add_comm m]
    · refine ⟨d.NX + d.NU + m, by unfold Dims.M; omega, ?_⟩
      unfold nodeIdx
      rw [if_neg (by omega), if_neg (by omega), Nat.add_comm j]
      congr 2
      congr 1
      omega
  · rintro ⟨j, hj, i, hi, rfl⟩
    refine ⟨j, hj, ?_⟩
    unfold nodeIdx
    unfold Dims.M at hi
    by_cases h1 : i < d.NX
    · left; exact ⟨i, h1, by rw [if_pos h1, Nat.add_comm j, Nat.add_comm i]⟩
    by_cases h2 : i < d.NX + d.NU
    · right; left
      refine ⟨i - d.NX, by omega, ?_⟩
      rw [if_neg h1, if_pos h2, Nat.add_comm j, Nat.sub_add_cancel (by omega), Nat.add_assoc, Nat.add_comm (i - d.NX)]
    · right; right
      refine ⟨i - d.NX - d.NU, by omega, ?_⟩
      rw [if_neg h1, if_neg h2, Nat.add_comm j, show d.NX + d.NU + (i - d.NX - d.NU) = i by omega]

/-- The keys of two entries differ. -/
def KeyNe (a b : ℕ × ℕ × K) : Prop := ¬ (a.1 = b.1 ∧ a.2.1 = b.2.1)

theorem pairwise_range_map {n : ℕ} {f : ℕ → ℕ × ℕ × K} (h : ∀ a b, a < n → b < n → a ≠ b → KeyNe (f a) (f b)) :
    ((List.range n).map f).Pairwise KeyNe := by
  rw [List.pairwise_map]
  exact List.Pairwise.imp_of_mem (fun ha hb hab => h _ _ (List.mem_range.1 ha) (List.mem_range.1 hb) (by omega)) List.pairwise_lt_range

theorem pairwise_range_flatMap {n : ℕ} {f : ℕ → List (ℕ × ℕ × K)} (h1 : ∀ a < n, (f a).Pairwise KeyNe)
    (h2 : ∀ a b, a < n → b < n → a ≠ b → ∀ x ∈ f a, ∀ y ∈ f b, KeyNe x y) : ((List.range n).flatMap f).Pairwise KeyNe := by
  rw [List.pairwise_flatMap]
  refine ⟨fun a ha => h1 a (List.mem_range.1 ha), ?_⟩
  exact List.Pairwise.imp_of_mem (fun ha hb hab => h2 _ _ (List.mem_range.1 ha) (List.mem_range.1 hb) (by omega)) List.pairwise_lt_range

theorem pairwise_nodeIns (d : Dims) {n t : ℕ} (ht : t < d.NN) (v : ℕ → ℕ → K) : (nodeIns d n t v).Pairwise KeyNe := by
  unfold nodeIns
  have hf := idx_facts d ht
  refine pairwise_range_flatMap (fun j hj => ?_) fun a b ha hb hne x hx y hy hk => ?_
  · refine List.pairwise_append.2 ⟨pairwise_range_map fun a b ha hb hne hk => hne ?_, List.pairwise_append.2
      ⟨pairwise_range_map fun a b ha hb hne hk => hne ?_, pairwise_range_map fun a b ha hb hne hk => hne ?_, ?_⟩, ?_⟩
    · have := hk.2; dsimp only at this; omega
    · have := hk.2; dsimp only at this; omega
    · have := hk.2; dsimp only at this; omega
    · intro x hx y hy hk
      obtain ⟨m, hm, rfl⟩ := List.mem_map.1 hx
      obtain ⟨m', hm', rfl⟩ := List.mem_map.1 hy
      have := hk.2; dsimp only at this
      have := List.mem_range.1 hm
      omega
    · intro x hx y hy hk
      obtain ⟨m, hm, rfl⟩ := List.mem_map.1 hx
      have := List.mem_range.1 hm
      rcases List.mem_append.1 hy with hy | hy
      · obtain ⟨m', hm', rfl⟩ := List.mem_map.1 hy
        have := hk.2; dsimp only at this
        omega
      · obtain ⟨m', hm', rfl⟩ := List.mem_map.1 hy
        have := hk.2; dsimp only at this
        omega
  · have hrow : ∀ j, ∀ x ∈ ((List.range d.NX).map fun m => (j + t * n, m + t * d.NX, v j m)) ++
        (((List.range d.NU).map fun m => (j + t * n, m + t * d.NU + d.VARX, v j (m + d.NX))) ++
        ((List.range d.NP).map fun m => (j + t * n, d.VARX + d.VARU + m, v j (d.NX + d.NU + m)))), x.1 = j + t * n := by
      intro j x hx
      simp only [List.mem_append, List.mem_map] at hx
      rcases hx with ⟨m, _, rfl⟩ | ⟨m, _, rfl⟩ | ⟨m, _, rfl⟩ <;> rfl
    have h1 := hrow a x hx
    have h2 := hrow b y hy
    have := hk.1
    omega

/-- All new entries. -/
def allIns (d : Dims) (n : ℕ) (v : ℕ → ℕ → ℕ → K) : List (ℕ × ℕ × K) := (List.range d.NN).flatMap fun t => nodeIns d n t (v t)

theorem mem_allIns (d : Dims) {n : ℕ} {v : ℕ → ℕ → ℕ → K} {e : ℕ × ℕ × K} :
    e ∈ allIns d n v ↔ ∃ t < d.NN, ∃ j < n, ∃ i < d.M, e = (t * n + j, nodeIdx d t i, v t j i) := by
  unfold allIns
  simp only [List.mem_flatMap, List.mem_range, mem_nodeIns]

theorem pairwise_allIns (d : Dims) (n : ℕ) (v : ℕ → ℕ → ℕ → K) : (allIns d n v).Pairwise KeyNe := by
  unfold allIns
  refine pairwise_range_flatMap (fun t ht => pairwise_nodeIns d ht _) fun a b ha hb hne x hx y hy hk => ?_
  obtain ⟨j, hj, i, hi, rfl⟩ := (mem_nodeIns d).1 hx
  obtain ⟨j', hj', i', hi', rfl⟩ := (mem_nodeIns d).1 hy
  exact hne (blk_inj hj hj' hk.1).1

/-- Inserting the blocks of all nodes into an empty matrix with enough room. -/
theorem fill (d : Dims) (n : ℕ) (v : ℕ → ℕ → ℕ → K) (A : Csc K) (sizes : ℕ → ℕ)
    (hroom : ∀ c < d.VAR, rank (rowPat d n c) (n * d.NN) ≤ sizes c) :
    ∃ A', runOps d.VAR ((allIns d n v).map fun e => Op.ins e.1 e.2.1 e.2.2) (A.reserve sizes) = some A' ∧
      A'.start = (A.reserve sizes).start ∧
      Holds A' d.VAR (n * d.NN) (rowPat d n) fun r c => scatter d (r / n) (v (r / n) (r % n)) c := by
  have h0 := holds_reserve A d.VAR (n * d.NN) sizes (fun _ _ => (0 : K))
  obtain ⟨A', e, s, h⟩ := h0.insertAll (allIns d n v) (fun e he => by
      obtain ⟨t, ht, j, hj, i, hi, rfl⟩ := (mem_allIns d).1 he
      exact ⟨by rw [Nat.mul_comm n]; exact blk_le hj ht, nodeIdx_lt d ht hi, rfl⟩) (pairwise_allIns d n v)
    (fun c r => decide (c < d.VAR) && rowPat d n c r) (fun c r => by
      simp only [Bool.false_eq_true, false_or, Bool.and_eq_true, decide_eq_true_eq]
      constructor
      · rintro ⟨hc, hr⟩
        obtain ⟨t, b, ht, hb, rfl⟩ := blk_split (rowPat_lt d hr)
        rw [rowPat_at d ht hb, hitB_iff d ht hc] at hr
        obtain ⟨i, hi, rfl⟩ := hr
        exact ⟨v t b i, (mem_allIns d).2 ⟨t, ht, b, hb, i, hi, rfl⟩⟩
      · rintro ⟨x, hx⟩
        obtain ⟨t, ht, j, hj, i, hi, e⟩ := (mem_allIns d).1 hx
        simp only [Prod.mk.injEq] at e
        obtain ⟨rfl, rfl, rfl⟩ := e
        exact ⟨nodeIdx_lt d ht hi, by rw [rowPat_at d ht hj, hitB_iff d ht (nodeIdx_lt d ht hi)]; exact ⟨i, hi, rfl⟩⟩)
    (fun c hc => by
      have e : (fun r => decide (c < d.VAR) && rowPat d n c r) = rowPat d n c := by funext r; rw [decide_eq_true hc, Bool.true_and]
      rw [e]
      show ∑ i ∈ Finset.range c, sizes i + _ ≤ ∑ i ∈ Finset.range (c + 1), sizes i
      rw [Finset.sum_range_succ]
      have := hroom c hc; omega)
    (fun r c => scatter d (r / n) (v (r / n) (r % n)) c) (fun c r h => by simp at h) (fun e he => by
      obtain ⟨t, ht, j, hj, i, hi, rfl⟩ := (mem_allIns d).1 he
      dsimp only
      rw [blk_div t hj, blk_mod t hj, scatter_at d _ ht hi])
  exact ⟨A', e, s, h.congrP fun c hc r => by rw [decide_eq_true hc, Bool.true_and]⟩

/-! ### The composite differentiation matrix -/

theorem compositeD_closed (d : Dims) (A : Approx K) (hS : 1 ≤ d.S) (hN : 1 ≤ d.N) {s j i : ℕ} (hs : s < d.S) (hj : j ≤ d.N)
    (hjs : j < d.N ∨ s + 1 = d.S) (hi : i < d.NN) :
    compositeD d A (s * d.N + j) i = if s * d.N ≤ i ∧ i ≤ s * d.N + d.N then A.D j (i - s * d.N) else 0 := by
  unfold compositeD
  have hSN : (d.S - 1) * d.N + d.N = d.S * d.N := by rw [← Nat.succ_mul]; congr 1; omega
  have hNN : d.NN = d.S * d.N + 1 := rfl
  by_cases h2 : d.S < 2
  · have : s = 0 := by omega
    subst this
    have : d.S = 1 := by omega
    rw [this] at hNN
    rw [if_pos h2, if_pos (by omega)]
    simp
  · rw [if_neg h2]
    set Z : ℕ → ℕ → K := setBlock (fun _ _ => 0) (d.NN - (d.N + 1)) (d.NN - (d.N + 1)) (d.N + 1) (d.N + 1) A.D with hZ
    have e0 : d.NN - (d.N + 1) = (d.S - 1) * d.N := by omega
    set F : ℕ → (ℕ → ℕ → K) → ℕ → ℕ → K := fun q DM => setBlock DM (q * d.N) (q * d.N) d.N (d.N + 1) A.D with hF
    by_cases hsl : s + 1 = d.S
    · have es : s = d.S - 1 := by omega
      have hn := loop_none (fun M : ℕ → ℕ → K => M (s * d.N + j) i) (f := F) (n := d.S - 1) Z (by
        intro q hq M
        have := mul_step (n := d.N) (show q < s by omega)
        simp only [hF, setBlock]
        rw [if_neg (by omega)])
      refine hn.trans ?_
      simp only [hZ, setBlock]
      rw [e0, ← es, Nat.add_sub_cancel_left]
      by_cases h : s * d.N ≤ i ∧ i ≤ s * d.N + d.N
      · rw [if_pos h, if_pos (by omega)]
      · rw [if_neg h, if_neg (by omega)]
    · have hjN : j < d.N := by omega
      have hl := loop_at (fun M : ℕ → ℕ → K => M (s * d.N + j) i) (f := F) (n := d.S - 1) (k := s) (by omega) Z (by
        intro q hq hne M
        simp only [hF, setBlock]
        rw [if_neg]
        rintro ⟨h1, -⟩
        exact hne ((blk s q hjN).1 h1))
      refine hl.1.trans ?_
      have hZ0 : Z (s * d.N + j) i = 0 := by
        simp only [hZ, setBlock]
        have := mul_step (n := d.N) (show s < d.S - 1 by omega)
        rw [if_neg (by omega)]
      have h2 := hl.2
      generalize loop s F Z = W at h2
      simp only [hF, setBlock, Nat.add_sub_cancel_left]
      by_cases h : s * d.N ≤ i ∧ i ≤ s * d.N + d.N
      · rw [if_pos h, if_pos (by omega)]
      · rw [if_neg h, if_neg (by omega)]
        exact h2.trans hZ0

/-- The dense and the sparse code use the same differentiation matrix. -/
theorem denseDiff_composite (d : Dims) (A : Approx K) (hS : 1 ≤ d.S) (hN : 1 ≤ d.N) (hsk : SkewEnds d A) {k b c : ℕ} (hk : k < d.NN)
    (hb : b < d.NX) (hc : c < d.VAR) :
    denseDiffPart d A (k * d.NX + b) c = if c < d.VARX ∧ c % d.NX = b then compositeD d A k (c / d.NX) else 0 := by
  obtain ⟨s, j, hs, hj, hjs, rfl⟩ := node_split d hS hN hk
  rw [denseDiff_closed d A hS hN hsk hs hj hjs hb]
  unfold diffRow
  by_cases hcx : c < d.VARX ∧ c % d.NX = b
  · rw [if_pos hcx]
    obtain ⟨i, a, hi, ha, rfl⟩ := blk_split hcx.1
    have hab := hcx.2
    rw [blk_mod i ha] at hab
    subst hab
    rw [blk_div i ha, compositeD_closed d A hS hN hs hj hjs hi]
    by_cases h : s * d.N ≤ i ∧ i ≤ s * d.N + d.N
    · rw [if_pos h, Finset.sum_eq_single (i - s * d.N)]
      · rw [show s * d.N + (i - s * d.N) = i by omega]; simp
      · intro l hl hne
        rw [if_neg]
        intro e
        exact hne (by have := (blk_inj ha ha e).1; omega)
      · intro hn; exact absurd (Finset.mem_range.2 (by omega)) hn
    · rw [if_neg h]
      refine Finset.sum_eq_zero fun l hl => ?_
      rw [if_neg]
      intro e
      have := (blk_inj ha ha e).1
      have := Finset.mem_range.1 hl
      exact h (by omega)
  · rw [if_neg hcx]
    refine Finset.sum_eq_zero fun l hl => ?_
    rw [if_neg]
    intro e
    have hl' := Finset.mem_range.1 hl
    refine hcx ⟨?_, by rw [← e, blk_mod _ hb]⟩
    rw [← e]
    exact xIdx_lt d (node_lt d hs (by omega)) hb

/-- Which rows of a column the differentiation matrix occupies. -/
theorem segment_lo_hi (d : Dims) (hN : 1 ≤ d.N) {s j i : ℕ} (hs : s < d.S) (hj : j ≤ d.N) (hjs : j < d.N ∨ s + 1 = d.S) (hiN : i < d.NN) :
    (s * d.N ≤ i ∧ i ≤ s * d.N + d.N) ↔ (lo d i ≤ s * d.N + j ∧ s * d.N + j < hi d i) := by
  have hNN : d.NN = d.S * d.N + 1 := rfl
  have hq1 : (i - 1) / d.N * d.N ≤ i - 1 := Nat.div_mul_le_self _ _
  have hq2 : i - 1 < (i - 1) / d.N * d.N + d.N := by
    have := Nat.lt_mul_div_succ (i - 1) (show 0 < d.N by omega)
    rw [Nat.mul_comm, Nat.add_mul] at this; omega
  have hp1 : i / d.N * d.N ≤ i := Nat.div_mul_le_self _ _
  have hp2 : i < i / d.N * d.N + d.N := by
    have := Nat.lt_mul_div_succ i (show 0 < d.N by omega)
    rw [Nat.mul_comm, Nat.add_mul] at this; omega
  have hsS := mul_step (n := d.N) hs
  unfold lo hi
  set q' := (i - 1) / d.N
  set q := i / d.N
  rw [Nat.add_mul q 1, Nat.one_mul]
  constructor
  · rintro ⟨h1, h2⟩
    have hqs : q' ≤ s := by
      by_contra hc
      have := mul_step (n := d.N) (show s < q' by omega); omega
    have := Nat.mul_le_mul_right d.N hqs
    refine ⟨by omega, ?_⟩
    have hsq : s ≤ q := by
      by_contra hc
      have := mul_step (n := d.N) (show q < s by omega); omega
    have := Nat.mul_le_mul_right d.N hsq
    split_ifs <;> omega
  · rintro ⟨h1, h2⟩
    constructor
    · by_contra hc
      have hqs : q < s := by
        by_contra hc'
        have := Nat.mul_le_mul_right d.N (show s ≤ q by omega); omega
      have := mul_step (n := d.N) hqs
      rw [if_neg (by omega)] at h2
      omega
    · by_contra hc
      have hqs : s < q' := by
        by_contra hc'
        have := Nat.mul_le_mul_right d.N (show q' ≤ s by omega); omega
      have := mul_step (n := d.N) hqs
      have e : s + 1 = d.S := by omega
      have : d.S * d.N = s * d.N + d.N := by rw [← e, Nat.add_mul, Nat.one_mul]
      omega

variable [DecidableEq K]

/-- Entries that the composite matrix keeps. -/
def keepB (d : Dims) (A : Approx K) (k i : ℕ) : Bool := decide (d.S < 2) || !decide (compositeD d A k i = 0)

/-- Off the diagonal the differentiation matrix has no zeros. -/
def OffDiag (d : Dims) (A : Approx K) : Prop := ∀ i ≤ d.N, ∀ j ≤ d.N, i ≠ j → A.D i j ≠ 0

theorem keepB_eq (d : Dims) (A : Approx K) (hS : 1 ≤ d.S) (hN : 1 ≤ d.N) (hD : OffDiag d A) {k i : ℕ} (hk : k < d.NN) (hi' : i < d.NN)
    (hne : k ≠ i) : keepB d A k i = decide (lo d i ≤ k ∧ k < hi d i) := by
  obtain ⟨s, j, hs, hj, hjs, rfl⟩ := node_split d hS hN hk
  have hseg := segment_lo_hi d hN hs hj hjs hi'
  unfold keepB
  rw [compositeD_closed d A hS hN hs hj hjs hi']
  by_cases h2 : d.S < 2
  · have : d.S = 1 := by omega
    have hNN : d.NN = d.S * d.N + 1 := rfl
    have : s = 0 := by omega
    subst this
    rw [decide_eq_true h2, Bool.true_or, decide_eq_true]
    rw [← hseg]
    rw [‹d.S = 1›] at hNN
    omega
  · rw [decide_eq_false h2, Bool.false_or]
    by_cases h : s * d.N ≤ i ∧ i ≤ s * d.N + d.N
    · rw [if_pos h, decide_eq_true (hseg.1 h)]
      rw [decide_eq_false (hD j hj (i - s * d.N) (by omega) (by omega))]
      rfl
    · rw [if_neg h, decide_eq_false (fun hh => h (hseg.2 hh))]
      simp

theorem keepB_false (d : Dims) (A : Approx K) {k i : ℕ} (h : keepB d A k i = false) : compositeD d A k i = 0 := by
  unfold keepB at h
  rw [Bool.or_eq_false_iff] at h
  simpa using h.2

theorem filter_blocks (q : ℕ → Bool) {n a : ℕ} (ha : a < n) (m : ℕ) :
    (List.range (m * n)).filter (fun r => decide (r % n = a) && q (r / n)) = ((List.range m).filter q).map fun k => k * n + a := by
  induction m with
  | zero => simp
  | succ m ih =>
    rw [Nat.add_mul, Nat.one_mul, List.range_add, List.filter_append, ih, List.range_succ, List.filter_append, List.map_append]
    congr 1
    rw [List.filter_map]
    have e : (List.range n).filter ((fun r => decide (r % n = a) && q (r / n)) ∘ fun x => m * n + x)
        = (List.range n).filter fun b => b == a && q m := by
      refine List.filter_congr fun b hb => ?_
      have hb := List.mem_range.1 hb
      simp only [Function.comp, blk_mod m hb, blk_div m hb]
      rfl
    rw [e]
    by_cases hq : q m = true
    · have e2 : (List.range n).filter (fun b => b == a && q m) = [a] := by
        simp only [hq, Bool.and_true]
        rw [List.filter_beq]
        have : List.count a (List.range n) = 1 := List.count_eq_one_of_mem List.nodup_range (List.mem_range.2 ha)
        rw [this]; rfl
      rw [e2]; simp [hq]
    · have e2 : (List.range n).filter (fun b => b == a && q m) = [] := by simp [hq]
      rw [e2]; simp [hq]

/-- Entries of the sparse differentiation matrix. -/
def diffPat (d : Dims) (A : Approx K) (c r : ℕ) : Bool := decide (r < d.VARX) && (decide (r % d.NX = c % d.NX) && keepB d A (r / d.NX) (c / d.NX))

theorem diffMatCols_canon (d : Dims) (A : Approx K) (hX : 0 < d.NX) (c : ℕ) :
    diffMatCols d A c = canon d.NEQ (diffPat d A c) fun r => compositeD d A (r / d.NX) (c / d.NX) := by
  unfold canon
  have e : (List.range d.NEQ).filter (diffPat d A c)
      = (List.range (d.NN * d.NX)).filter fun r => decide (r % d.NX = c % d.NX) && (fun k => keepB d A k (c / d.NX)) (r / d.NX) := by
    rw [show d.NEQ = d.NN * d.NX from Nat.mul_comm _ _]
    refine List.filter_congr fun r hr => ?_
    have hr := List.mem_range.1 hr
    unfold diffPat
    rw [decide_eq_true (show r < d.VARX by rw [show d.VARX = d.NN * d.NX from Nat.mul_comm _ _]; exact hr), Bool.true_and]
  rw [e, filter_blocks (fun k => keepB d A k (c / d.NX)) (Nat.mod_lt c hX), List.map_map]
  unfold diffMatCols
  refine List.map_congr_left fun k hk => ?_
  simp only [Function.comp, blk_div k (Nat.mod_lt c hX)]

theorem diffMatDiag_eq (d : Dims) (A : Approx K) {i : ℕ} (hi : i < d.VARX) : diffMatDiag d A i = compositeD d A (i / d.NX) (i / d.NX) := by
  have hX : 0 < d.NX := by
    rcases Nat.eq_zero_or_pos d.NX with h | h
    · unfold Dims.VARX at hi; rw [h] at hi; omega
    · exact h
  unfold diffMatDiag
  rw [diffMatCols_canon d A hX, find_canon]
  by_cases h : diffPat d A i i = true
  · rw [if_pos ⟨h, hi⟩]
  · rw [if_neg (fun hh => h hh.1)]
    refine (keepB_false d A ?_).symm
    unfold diffPat at h
    rw [decide_eq_true hi] at h
    simpa using h

/-! ### Traces of the node loops -/

theorem loop_trace {Y C T : Type*} (fy : ℕ → Y → Y) (fc : ℕ → Y → C → C) (ft : ℕ → Y → T → T) (y0 : Y) (c0 : C) (t0 : T) (n : ℕ) :
    loop n (fun t (s : Y × C × T) => (fy t s.1, fc t (fy t s.1) s.2.1, ft t (fy t s.1) s.2.2)) (y0, c0, t0)
      = (loop n fy y0, loop n (fun t c => fc t (loop (t + 1) fy y0) c) c0, loop n (fun t τ => ft t (loop (t + 1) fy y0) τ) t0) := by
  induction n with
  | zero => rfl
  | succ n ih => rw [loop_succ, ih]; rfl

theorem loop_runOps (n m : ℕ) (ops : ℕ → List (Op K)) (J : Csc K) :
    loop n (fun t (J : Option (Csc K)) => J.bind (runOps m (ops t))) (some J) = runOps m ((List.range n).flatMap ops) J := by
  induction n with
  | zero => rfl
  | succ n ih =>
    rw [loop_succ, ih, List.range_succ, List.flatMap_append, runOps_append]
    simp

/-- `m_ad_y` before node `t`. -/
def yT (d : Dims) (cb : Cbs d K) (o : Obj d K) (var : ℕ → K) (t : ℕ) : ℕ → Dual d.M K :=
  loop t (fun t y => cb.dynAD (node d var t) (o.time t) y) o.adY

/-- Constraint values after `n` nodes. -/
def cT (d : Dims) (A : Approx K) (cb : Cbs d K) (o : Obj d K) (junk : ℕ → ℕ → K) (var c0 : ℕ → K) (n : ℕ) : ℕ → K :=
  loop n (fun t c => addSeg (setSeg c (t * d.NX) d.NX fun i => -tScale d o * (yT d cb o var (t + 1) i).val) (t * d.NX) d.NX
    fun i => diffX d A var junk t i) c0

theorem equalitiesLin_trace (d : Dims) (A : Approx K) (cb : Cbs d K) (o : Obj d K) (junk : ℕ → ℕ → K) (var c0 : ℕ → K) :
    (equalitiesLin d A cb o junk var c0).1 = cT d A cb o junk var c0 d.NN ∧
    (equalitiesLin d A cb o junk var c0).2.2 = { o with adY := yT d cb o var d.NN } ∧
    ∀ k < d.NN, ∀ b < d.NX, ∀ c < d.VAR, (equalitiesLin d A cb o junk var c0).2.1 (k * d.NX + b) c
      = denseDiffPart d A (k * d.NX + b) c + scatter d k (fun i => -(tScale d o * derAt (yT d cb o var (k + 1) b) i)) c := by
  have h := loop_trace (fun t y => cb.dynAD (node d var t) (o.time t) y)
    (fun t y c => addSeg (setSeg c (t * d.NX) d.NX fun i => -tScale d o * (y i).val) (t * d.NX) d.NX fun i => diffX d A var junk t i)
    (fun t y (J : ℕ → ℕ → K) => addBlock (addBlock (addBlock J (t * d.NX) (t * d.NX) d.NX d.NX fun r m => -(tScale d o * derAt (y r) m))
      (t * d.NX) (t * d.NU + d.VARX) d.NX d.NU fun r m => -(tScale d o * derAt (y r) (d.NX + m)))
      (t * d.NX) (d.VARX + d.VARU) d.NX d.NP fun r m => -(tScale d o * derAt (y r) (d.NX + d.NU + m)))
    o.adY c0 (denseDiffPart d A) d.NN
  have e : equalitiesLin d A cb o junk var c0 = _ := congrArg (fun s : (ℕ → Dual d.M K) × (ℕ → K) × (ℕ → ℕ → K) =>
    (s.2.1, s.2.2, { o with adY := s.1 })) h
  rw [e]
  refine ⟨rfl, rfl, fun k hk b hb c hc => ?_⟩
  have hl := loop_at (fun J : ℕ → ℕ → K => J (k * d.NX + b) c) (n := d.NN) (k := k) hk (f := fun t (J : ℕ → ℕ → K) =>
    addBlock (addBlock (addBlock J (t * d.NX) (t * d.NX) d.NX d.NX fun r m => -(tScale d o * derAt (yT d cb o var (t + 1) r) m))
      (t * d.NX) (t * d.NU + d.VARX) d.NX d.NU fun r m => -(tScale d o * derAt (yT d cb o var (t + 1) r) (d.NX + m)))
      (t * d.NX) (d.VARX + d.VARU) d.NX d.NP fun r m => -(tScale d o * derAt (yT d cb o var (t + 1) r) (d.NX + d.NU + m)))
    (denseDiffPart d A) (fun t ht hne J => addRows_off d J hne hb _ _ _ _ _ _ _ _ _ c)
  refine hl.1.trans ?_
  have h2 := hl.2
  generalize loop k (fun t (J : ℕ → ℕ → K) =>
    addBlock (addBlock (addBlock J (t * d.NX) (t * d.NX) d.NX d.NX fun r m => -(tScale d o * derAt (yT d cb o var (t + 1) r) m))
      (t * d.NX) (t * d.NU + d.VARX) d.NX d.NU fun r m => -(tScale d o * derAt (yT d cb o var (t + 1) r) (d.NX + m)))
      (t * d.NX) (d.VARX + d.VARU) d.NX d.NP fun r m => -(tScale d o * derAt (yT d cb o var (t + 1) r) (d.NX + d.NU + m)))
    (denseDiffPart d A) = W at h2
  rw [← h2]
  exact addRows_apply d W hk hb (fun r m => -(tScale d o * derAt (yT d cb o var (k + 1) r) m)) hc

end PolyMPC.Ocp
