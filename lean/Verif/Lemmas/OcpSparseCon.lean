import Verif.Lemmas.OcpSparseJac

/-! # Sparse transcription: assembling the constraint Jacobian -/

namespace PolyMPC.Ocp
open AD Sparse Sparse.Csc

set_option linter.unusedSectionVars false
set_option linter.unusedVariables false

variable {K : Type} [Field K] [DecidableEq K]

/-- Entries of the stacked Jacobian. -/
def conPat (d : Dims) (c r : ℕ) : Bool := if r < d.NEQ then eqPat d c r else rowPat d d.NG c (r - d.NEQ)

/-- Stacked values. -/
def stack (d : Dims) (E G : ℕ → ℕ → K) (r c : ℕ) : K := if r < d.NEQ then E r c else G (r - d.NEQ) c

/-- A matrix with the pattern of the stacked Jacobian and values `M`, stored without gaps. -/
structure ConForm (d : Dims) (M : ℕ → ℕ → K) (J : Csc K) : Prop where
  holds : Holds J d.VAR (d.NEQ + d.NINEQ) (conPat d) M
  start : ∀ c ≤ d.VAR, J.start c = ∑ i ∈ Finset.range c, (eqNnz d i + ineqNnz d i)

/-- A matrix that has just been allocated. -/
structure Empty (J : Csc K) : Prop where
  start : ∀ c, J.start c = 0
  cnt : ∀ c, J.cnt c = 0

theorem conPat_eq {d : Dims} {c r : ℕ} (hr : r < d.NEQ) : conPat d c r = eqPat d c r := if_pos hr
theorem conPat_ineq {d : Dims} (c r : ℕ) : conPat d c (d.NEQ + r) = rowPat d d.NG c r := by
  unfold conPat; rw [if_neg (by omega), Nat.add_sub_cancel_left]

theorem rank_conPat_eq {d : Dims} (c : ℕ) {r : ℕ} (hr : r ≤ d.NEQ) : rank (conPat d c) r = rank (eqPat d c) r :=
  rank_congr fun i hi => conPat_eq (by omega)

theorem rank_conPat_ineq {d : Dims} (c r : ℕ) : rank (conPat d c) (d.NEQ + r) = rank (eqPat d c) d.NEQ + rank (rowPat d d.NG c) r := by
  rw [rank_add, rank_conPat_eq c le_rfl]
  congr 1
  exact rank_congr fun i hi => conPat_ineq c i

theorem sum_nnz_pos (d : Dims) (hX : 0 < d.NX) (hS : 1 ≤ d.S) (hN : 1 ≤ d.N) : 0 < sumNnz d (eqNnz d) := by
  have h0 : 0 < d.NN := by unfold Dims.NN; omega
  have hv : 0 < d.VAR := by have := xIdx_lt d h0 hX; unfold Dims.VAR; omega
  unfold sumNnz
  refine lt_of_lt_of_le ?_ (Finset.single_le_sum (f := eqNnz d) (fun _ _ => Nat.zero_le _) (Finset.mem_range.2 hv))
  have e := eqNnz_x d h0 hX
  rw [Nat.zero_mul, Nat.add_zero] at e
  rw [e]; omega

theorem Empty.nonZeros {J : Csc K} (h : Empty J) (n : ℕ) : J.nonZeros n = 0 := by
  unfold Csc.nonZeros
  exact Finset.sum_eq_zero fun c _ => h.cnt c

/-- Number of entries of a matrix of the given form. -/
theorem EqForm.nonZeros {d : Dims} (hS : 1 ≤ d.S) (hN : 1 ≤ d.N) {A : Approx K} {W : ℕ → ℕ → ℕ → K} {J : Csc K} (h : EqForm d A W J) :
    J.nonZeros d.VAR = sumNnz d (eqNnz d) := by
  rw [h.holds.nonZeros]
  exact Finset.sum_congr rfl fun c hc => (eqNnz_rank hS hN (Finset.mem_range.1 hc)).symm

theorem IneqForm.nonZeros {d : Dims} {M : ℕ → ℕ → K} {J : Csc K} (h : IneqForm d M J) : J.nonZeros d.VAR = sumNnz d (ineqNnz d) := by
  rw [h.holds.nonZeros]
  exact Finset.sum_congr rfl fun c hc => (ineqNnz_rank (Finset.mem_range.1 hc)).symm

theorem rank_conPat {d : Dims} (hS : 1 ≤ d.S) (hN : 1 ≤ d.N) {c : ℕ} (hc : c < d.VAR) :
    rank (conPat d c) (d.NEQ + d.NINEQ) = eqNnz d c + ineqNnz d c := by
  rw [rank_conPat_ineq, eqNnz_rank hS hN hc, ineqNnz_rank hc]

theorem ConForm.nonZeros {d : Dims} (hS : 1 ≤ d.S) (hN : 1 ≤ d.N) {M : ℕ → ℕ → K} {J : Csc K} (h : ConForm d M J) :
    J.nonZeros d.VAR = sumNnz d (eqNnz d) + sumNnz d (ineqNnz d) := by
  rw [h.holds.nonZeros]
  unfold sumNnz
  rw [← Finset.sum_add_distrib]
  exact Finset.sum_congr rfl fun c hc => rank_conPat hS hN (Finset.mem_range.1 hc)

theorem Empty.ineqForm {d : Dims} (hG : d.NG = 0) {J : Csc K} (h : Empty J) (M : ℕ → ℕ → K) : IneqForm d M J := by
  have hp : ∀ c r, rowPat d d.NG c r = false := fun c r => by
    unfold rowPat; rw [hG, Nat.zero_mul, decide_eq_false (by omega), Bool.false_and]
  refine ⟨⟨fun c _ => ?_, fun c _ => ?_, fun c _ r hr => ?_, fun c _ r hr => ?_, fun c _ r hr => ?_⟩, fun c hc => ?_⟩
  · rw [h.cnt, rank_none fun i _ => hp c i]
  · rw [h.start, h.cnt, h.start]
  · rw [hp] at hr; exact absurd hr (by decide)
  · rw [hp] at hr; exact absurd hr (by decide)
  · rw [hp] at hr; exact absurd hr (by decide)
  · rw [h.start, Finset.sum_eq_zero]
    intro i hi
    have hi := Finset.mem_range.1 hi
    rw [ineqNnz_eq d (by omega), hG]
    unfold Dims.NINEQ
    rw [hG, Nat.zero_mul]; split_ifs <;> rfl

/-- The entries of a block as a list. -/
def blockEntries (n r0 m : ℕ) (P : ℕ → ℕ → Bool) (M : ℕ → ℕ → K) : List (ℕ × ℕ × K) :=
  (List.range n).flatMap fun c => (canon m (P c) fun r => M r c).map fun e => (r0 + e.1, c, e.2)

theorem mem_blockEntries {n r0 m : ℕ} {P : ℕ → ℕ → Bool} {M : ℕ → ℕ → K} {e : ℕ × ℕ × K} :
    e ∈ blockEntries n r0 m P M ↔ ∃ c < n, ∃ r < m, P c r = true ∧ e = (r0 + r, c, M r c) := by
  unfold blockEntries canon
  simp only [List.mem_flatMap, List.mem_map, List.mem_range, List.mem_filter]
  constructor
  · rintro ⟨c, hc, x, ⟨r, ⟨hr, hp⟩, rfl⟩, rfl⟩
    exact ⟨c, hc, r, hr, hp, rfl⟩
  · rintro ⟨c, hc, r, hr, hp, rfl⟩
    exact ⟨c, hc, _, ⟨r, ⟨hr, hp⟩, rfl⟩, rfl⟩

theorem pairwise_blockEntries (n r0 m : ℕ) (P : ℕ → ℕ → Bool) (M : ℕ → ℕ → K) : (blockEntries n r0 m P M).Pairwise KeyNe := by
  unfold blockEntries
  refine pairwise_range_flatMap (fun c hc => ?_) fun a b ha hb hne x hx y hy hk => ?_
  · unfold canon
    rw [List.map_map, List.pairwise_map]
    refine List.Pairwise.imp ?_ (List.Pairwise.filter _ List.pairwise_lt_range)
    intro a b hab hk
    have := hk.1
    simp only [Function.comp] at this
    omega
  · obtain ⟨x', _, rfl⟩ := List.mem_map.1 hx
    obtain ⟨y', _, rfl⟩ := List.mem_map.1 hy
    exact hne hk.2

theorem blockIns_eq (d : Dims) (r0 m : ℕ) {P : ℕ → ℕ → Bool} {M : ℕ → ℕ → K} {B : Csc K} (h : Holds B d.VAR m P M) :
    blockIns d r0 B = (blockEntries d.VAR r0 m P M).map fun e => Op.ins e.1 e.2.1 e.2.2 := by
  unfold blockIns blockEntries
  rw [List.map_flatMap]
  refine List.flatMap_congr fun c hc => ?_
  rw [h.col_eq (List.mem_range.1 hc), List.map_map]
  rfl

theorem assemble_fresh (d : Dims) (hX : 0 < d.NX) (hS : 1 ≤ d.S) (hN : 1 ≤ d.N) {A : Approx K} {W : ℕ → ℕ → ℕ → K} {M : ℕ → ℕ → K} {Je Ji J : Csc K}
    (he : EqForm d A W Je) (hi : IneqForm d M Ji) (hJ : Empty J) :
    ∃ J', assemble d Je Ji J = some J' ∧ ConForm d (stack d (eqTgt d A W) M) J' := by
  have hpos := sum_nnz_pos d hX hS hN
  unfold assemble
  rw [if_pos (by rw [hJ.nonZeros]; omega), if_neg (by rw [hJ.nonZeros]; simp), blockIns_eq d 0 d.NEQ he.holds, blockIns_eq d d.NEQ d.NINEQ hi.holds,
    ← List.map_append]
  obtain ⟨J', e, s, h⟩ := (holds_reserve J d.VAR (d.NEQ + d.NINEQ) (fun c => eqNnz d c + ineqNnz d c) (fun _ _ => (0 : K))).insertAll
    (blockEntries d.VAR 0 d.NEQ (eqPat d) (eqTgt d A W) ++ blockEntries d.VAR d.NEQ d.NINEQ (rowPat d d.NG) M)
    (fun e he => by
      rcases List.mem_append.1 he with he | he
      · obtain ⟨c, hc, r, hr, hp, rfl⟩ := mem_blockEntries.1 he
        exact ⟨by dsimp only; omega, hc, rfl⟩
      · obtain ⟨c, hc, r, hr, hp, rfl⟩ := mem_blockEntries.1 he
        exact ⟨by dsimp only; omega, hc, rfl⟩)
    (by
      refine List.pairwise_append.2 ⟨pairwise_blockEntries _ _ _ _ _, pairwise_blockEntries _ _ _ _ _, fun x hx y hy hk => ?_⟩
      obtain ⟨c, hc, r, hr, hp, rfl⟩ := mem_blockEntries.1 hx
      obtain ⟨c', hc', r', hr', hp', rfl⟩ := mem_blockEntries.1 hy
      have := hk.1
      dsimp only at this; omega)
    (fun c r => decide (c < d.VAR) && (decide (r < d.NEQ + d.NINEQ) && conPat d c r)) (fun c r => by
      simp only [Bool.false_eq_true, false_or, Bool.and_eq_true, decide_eq_true_eq, List.mem_append]
      constructor
      · rintro ⟨hc, hr, hp⟩
        rcases Nat.lt_or_ge r d.NEQ with h | h
        · rw [conPat_eq h] at hp
          exact ⟨_, Or.inl (mem_blockEntries.2 ⟨c, hc, r, h, hp, by rw [Nat.zero_add]⟩)⟩
        · obtain ⟨q, rfl⟩ := Nat.exists_eq_add_of_le h
          rw [conPat_ineq] at hp
          exact ⟨_, Or.inr (mem_blockEntries.2 ⟨c, hc, q, by omega, hp, rfl⟩)⟩
      · rintro ⟨v, h | h⟩
        · obtain ⟨c', hc, r', hr, hp, e⟩ := mem_blockEntries.1 h
          simp only [Prod.mk.injEq, Nat.zero_add] at e
          obtain ⟨rfl, rfl, _⟩ := e
          exact ⟨hc, by omega, by rw [conPat_eq hr]; exact hp⟩
        · obtain ⟨c', hc, r', hr, hp, e⟩ := mem_blockEntries.1 h
          simp only [Prod.mk.injEq] at e
          obtain ⟨rfl, rfl, _⟩ := e
          exact ⟨hc, by omega, by rw [conPat_ineq]; exact hp⟩)
    (fun c hc => by
      show (∑ i ∈ Finset.range c, (eqNnz d i + ineqNnz d i)) + _ ≤ ∑ i ∈ Finset.range (c + 1), (eqNnz d i + ineqNnz d i)
      rw [Finset.sum_range_succ, ← rank_conPat hS hN hc]
      refine Nat.add_le_add_left (rank_le_of_imp (fun i hi => ?_) _) _
      simp only [Bool.and_eq_true] at hi
      exact hi.2.2)
    (stack d (eqTgt d A W) M) (fun c r h => absurd h (by decide)) (fun e he => by
      rcases List.mem_append.1 he with he | he
      · obtain ⟨c, hc, r, hr, hp, rfl⟩ := mem_blockEntries.1 he
        unfold stack
        dsimp only
        rw [Nat.zero_add, if_pos hr]
      · obtain ⟨c, hc, r, hr, hp, rfl⟩ := mem_blockEntries.1 he
        unfold stack
        dsimp only
        rw [if_neg (by omega), Nat.add_sub_cancel_left])
  refine ⟨J', e, h.congrP fun c hc r => ?_, fun c hc => by rw [s]; rfl⟩
  rw [decide_eq_true hc, Bool.true_and]
  by_cases hr : r < d.NEQ + d.NINEQ
  · rw [decide_eq_true hr, Bool.true_and]
  · rw [decide_eq_false hr, Bool.false_and]
    symm
    rw [Bool.eq_false_iff]
    intro hp
    unfold conPat at hp
    rw [if_neg (by omega)] at hp
    have := rowPat_lt d hp
    unfold Dims.NINEQ at hr
    omega

theorem assemble_update (d : Dims) (hX : 0 < d.NX) (hS : 1 ≤ d.S) (hN : 1 ≤ d.N) {A : Approx K} {W : ℕ → ℕ → ℕ → K} {M M0 : ℕ → ℕ → K} {Je Ji J : Csc K}
    (he : EqForm d A W Je) (hi : IneqForm d M Ji) (hJ : ConForm d M0 J) :
    ∃ J', assemble d Je Ji J = some J' ∧ ConForm d (stack d (eqTgt d A W) M) J' := by
  unfold assemble
  rw [if_neg (by rw [hJ.nonZeros hS hN]; simp)]
  have hE : 0 < d.NEQ := by
    have := xIdx_lt d (show 0 < d.NN by unfold Dims.NN; omega) hX
    unfold Dims.NEQ; omega
  have hrE : ∀ {c r}, c < d.VAR → eqPat d c r = true → r < d.NEQ := fun _ h => eqPat_lt h
  obtain ⟨J', M'', e, s, h1, h2⟩ := hJ.holds.putAll (stack d (eqTgt d A W) M) (blockPut d Je Ji) (by
    intro op hop
    unfold blockPut at hop
    rw [if_pos hE] at hop
    rcases List.mem_append.1 hop with hop | hop
    · obtain ⟨c, hc, rfl⟩ := List.mem_map.1 hop
      have hc := List.mem_range.1 hc
      refine Holds.puts hJ.holds _ (by omega) (Or.inr rfl) fun q hq => ?_
      rw [he.holds.cnt c hc] at hq
      obtain ⟨r, hr, hp, er⟩ := exists_rank (eqPat d c) hq
      refine ⟨c, r, hc, by rw [conPat_eq hr]; exact hp, by rw [rank_conPat_eq c (by omega), er, Nat.add_zero], ?_⟩
      have := he.holds.val c hc r hp
      unfold pos at this
      rw [er] at this
      unfold stack
      rw [if_pos hr, this]
    · split_ifs at hop with hI
      · obtain ⟨c, hc, rfl⟩ := List.mem_map.1 hop
        have hc := List.mem_range.1 hc
        refine Holds.puts hJ.holds _ (by omega) ?_ fun q hq => ?_
        · left
          rw [hi.holds.cnt c hc, ← ineqNnz_rank hc, ineqNnz_eq d hc]
          have : 0 < d.NG := Nat.pos_of_mul_pos_right hI
          split_ifs <;> omega
        · rw [hi.holds.cnt c hc] at hq
          obtain ⟨r, hr, hp, er⟩ := exists_rank (rowPat d d.NG c) hq
          refine ⟨c, d.NEQ + r, hc, by rw [conPat_ineq]; exact hp, by rw [rank_conPat_ineq, er, he.holds.cnt c hc, Nat.add_assoc], ?_⟩
          have := hi.holds.val c hc r hp
          unfold pos at this
          rw [er] at this
          unfold stack
          rw [if_neg (by omega), Nat.add_sub_cancel_left, this]
      · simp at hop)
  refine ⟨J', e, h1.congr fun c hc r hr hp => ?_, fun c hc => by rw [s]; exact hJ.start c hc⟩
  rcases h2 c hc r hp with h3 | ⟨h3, h4⟩
  · exact h3
  · exfalso
    unfold blockPut at h4
    rw [if_pos hE] at h4
    rcases Nat.lt_or_ge r d.NEQ with h | h
    · refine h4 _ (List.mem_append_left _ (List.mem_map.2 ⟨c, List.mem_range.2 hc, rfl⟩)) ⟨_, _, _, _, rfl, ?_⟩
      unfold pos
      rw [conPat_eq h] at hp
      have := rank_lt (eqPat d c) hp h
      rw [rank_conPat_eq c (by omega), he.holds.cnt c hc]
      omega
    · obtain ⟨q, rfl⟩ := Nat.exists_eq_add_of_le h
      rw [conPat_ineq] at hp
      have hI : 0 < d.NINEQ := by omega
      rw [if_pos hI] at h4
      refine h4 _ (List.mem_append_right _ (List.mem_map.2 ⟨c, List.mem_range.2 hc, rfl⟩)) ⟨_, _, _, _, rfl, ?_⟩
      unfold pos
      have := rank_lt (rowPat d d.NG c) hp (show q < d.NINEQ by omega)
      rw [rank_conPat_ineq, he.holds.cnt c hc, hi.holds.cnt c hc]
      omega

end PolyMPC.Ocp
