import Verif.Lemmas.OcpSparseEq

/-! # Sparse transcription: the equality Jacobian after a first and after later calls -/

namespace PolyMPC.Ocp
open AD Sparse Sparse.Csc

set_option linter.unusedSectionVars false
set_option linter.unusedVariables false

variable {K : Type} [Field K] [DecidableEq K]

/-- The part of the equality Jacobian that comes from the differentiation matrix. -/
def diffPart (d : Dims) (A : Approx K) (r c : ℕ) : K := if c < d.VARX ∧ r % d.NX = c % d.NX then compositeD d A (r / d.NX) (c / d.NX) else 0

/-- Entries of the equality Jacobian when the block of node `k` is `W k`. -/
def eqTgt (d : Dims) (A : Approx K) (W : ℕ → ℕ → ℕ → K) (r c : ℕ) : K := diffPart d A r c + scatter d (r / d.NX) (W (r / d.NX) (r % d.NX)) c

/-- A matrix that is the equality Jacobian, stored without gaps. -/
structure EqForm (d : Dims) (A : Approx K) (W : ℕ → ℕ → ℕ → K) (J : Csc K) : Prop where
  holds : Holds J d.VAR d.NEQ (eqPat d) (eqTgt d A W)
  start : ∀ c ≤ d.VAR, J.start c = ∑ i ∈ Finset.range c, eqNnz d i

theorem scatter_miss (d : Dims) {n c r : ℕ} (hc : c < d.VAR) (hr : r < n * d.NN) (h : rowPat d n c r = false) (g : ℕ → K) :
    scatter d (r / n) g c = 0 := by
  obtain ⟨t, b, ht, hb, rfl⟩ := blk_split hr
  rw [rowPat_at d ht hb] at h
  rw [blk_div t hb]
  refine scatter_off d g fun i hi e => ?_
  have := (hitB_iff d ht hc).2 ⟨i, hi, e⟩
  rw [h] at this; exact absurd this (by decide)

theorem eqPat_split (d : Dims) (A : Approx K) (hS : 1 ≤ d.S) (hN : 1 ≤ d.N) (hD : OffDiag d A) {c r : ℕ} (hc : c < d.VAR) :
    (rowPat d d.NX c r || (decide (c < d.VARX) && diffPat d A c r)) = eqPat d c r := by
  unfold eqPat diffPat
  by_cases h1 : rowPat d d.NX c r = true
  · rw [h1]; rfl
  · rw [Bool.eq_false_iff.2 h1, Bool.false_or, Bool.false_or]
    by_cases h2 : c < d.VARX
    · by_cases h3 : r < d.VARX
      · rw [decide_eq_true h2, decide_eq_true h3, Bool.true_and, Bool.true_and, Bool.true_and]
        obtain ⟨t, a, ht, ha, rfl⟩ := blk_split h2
        obtain ⟨k, b, hk, hb, rfl⟩ := blk_split h3
        rw [rowPat_at d hk hb, hitB_x d ht hk ha] at h1
        have h1 : k ≠ t := by simpa using h1
        rw [blk_div k hb, blk_div t ha, keepB_eq d A hS hN hD hk ht h1]
        try rw [Bool.true_and]
      · rw [decide_eq_false h3]; simp
    · rw [decide_eq_false h2]; simp

theorem eqIns_eq (d : Dims) (ts : K) (t : ℕ) (jac : ℕ → ℕ → K) :
    eqIns d ts t jac = (nodeIns d d.NX t fun j m => -ts * jac j m).map fun e => Op.ins e.1 e.2.1 e.2.2 := by
  unfold eqIns nodeIns
  rw [List.map_flatMap]
  refine congrArg (fun f => List.flatMap f (List.range d.NX)) (funext fun j => ?_)
  simp [List.map_append, List.map_map, Function.comp_def]

theorem rank_le_rowPat (d : Dims) (hS : 1 ≤ d.S) (hN : 1 ≤ d.N) {c : ℕ} (hc : c < d.VAR) :
    rank (rowPat d d.NX c) (d.NX * d.NN) ≤ eqNnz d c := by
  rw [eqNnz_rank hS hN hc]
  refine rank_le_of_imp (fun i h => ?_) _
  unfold eqPat; rw [h, Bool.true_or]

theorem eqLinFresh_form (d : Dims) (A : Approx K) (hX : 0 < d.NX) (hS : 1 ≤ d.S) (hN : 1 ≤ d.N) (hD : OffDiag d A) (cb : Cbs d K) (o : Obj d K)
    (junk : ℕ → ℕ → K) (var c0 : ℕ → K) (J : Csc K) :
    ∃ J', eqLinFresh d A cb o junk var c0 J = some (cT d A cb o junk var c0 d.NN, J', { o with adY := yT d cb o var d.NN }) ∧
      EqForm d A (fun k b i => -tScale d o * derAt (yT d cb o var (k + 1) b) i) J' := by
  set V : ℕ → ℕ → ℕ → K := fun k b i => -tScale d o * derAt (yT d cb o var (k + 1) b) i with hV
  have h := loop_trace (fun t y => cb.dynAD (node d var t) (o.time t) y)
    (fun t y c => addSeg (setSeg c (t * d.NX) d.NX fun i => -tScale d o * (y i).val) (t * d.NX) d.NX fun i => diffX d A var junk t i)
    (fun t y (J : Option (Csc K)) => J.bind (runOps d.VAR (eqIns d (tScale d o) t fun j m => derAt (y j) m)))
    o.adY c0 (some (J.reserve (eqNnz d))) d.NN
  have e : eqLinFresh d A cb o junk var c0 J = _ := congrArg (fun s : (ℕ → Dual d.M K) × (ℕ → K) × Option (Csc K) =>
    (s.2.2.bind fun J => J.addLeft d.VARX (diffMatCols d A)).map fun J => (s.2.1, J, ({ o with adY := s.1 } : Obj d K))) h
  rw [e]
  dsimp only
  have el := loop_runOps d.NN d.VAR (fun t => eqIns d (tScale d o) t fun j m => derAt (yT d cb o var (t + 1) j) m) (J.reserve (eqNnz d))
  have e1 : ((List.range d.NN).flatMap fun t => eqIns d (tScale d o) t fun j m => derAt (yT d cb o var (t + 1) j) m)
      = (allIns d d.NX V).map fun e => Op.ins e.1 e.2.1 e.2.2 := by
    unfold allIns
    rw [List.map_flatMap]
    refine congrArg (fun f => List.flatMap f (List.range d.NN)) (funext fun t => ?_)
    rw [eqIns_eq]
  rw [e1] at el
  obtain ⟨J1, e2, s2, h2⟩ := fill d d.NX V J (eqNnz d) fun c hc => rank_le_rowPat d hS hN hc
  rw [e2] at el
  rw [show loop d.NN (fun t (τ : Option (Csc K)) => τ.bind (runOps d.VAR (eqIns d (tScale d o) t fun j m =>
    derAt (loop (t + 1) (fun t y => cb.dynAD (node d var t) (o.time t) y) o.adY j) m))) (some (J.reserve (eqNnz d))) = some J1 from el]
  have hstart : ∀ c, J1.start c = ∑ i ∈ Finset.range c, eqNnz d i := fun c => by rw [s2]; rfl
  have hle : d.VARX ≤ d.VAR := by unfold Dims.VAR; omega
  obtain ⟨J2, e3, s3, h3⟩ := h2.addLeft hle (diffMatCols d A) (diffPat d A) (fun r c => compositeD d A (r / d.NX) (c / d.NX))
    (fun c hc => diffMatCols_canon d A hX c) (fun c hc r hr => by
      unfold diffPat at hr; rw [Bool.and_eq_true, decide_eq_true_eq] at hr; exact hr.1) (by rw [hstart]; rfl)
    (fun c hc => by
      rw [hstart, hstart, Finset.sum_range_succ, eqNnz_rank hS hN (by omega)]
      congr 1
      refine rank_congr fun r hr => ?_
      rw [← eqPat_split d A hS hN hD (show c < d.VAR by omega), decide_eq_true hc, Bool.true_and])
  refine ⟨J2, ?_, ?_, fun c hc => by rw [s3, hstart]⟩
  · show (Option.map _ (J1.addLeft d.VARX (diffMatCols d A))) = _
    rw [e3]; rfl
  · refine (h3.congrP fun c hc r => (eqPat_split d A hS hN hD hc)).congr fun c hc r hr hp => ?_
    unfold comb eqTgt diffPart
    by_cases hcx : c < d.VARX
    · rw [decide_eq_true hcx, Bool.true_and]
      by_cases hq : diffPat d A c r = true
      · have hq' := hq
        unfold diffPat at hq'
        simp only [Bool.and_eq_true, decide_eq_true_eq] at hq'
        rw [if_pos (show c < d.VARX ∧ r % d.NX = c % d.NX from ⟨hcx, hq'.2.1⟩)]
        by_cases hp1 : rowPat d d.NX c r = true
        · rw [if_pos hp1, if_pos hq]; exact add_comm _ _
        · rw [if_neg hp1, scatter_miss d hc hq'.1 (Bool.eq_false_iff.2 hp1), add_zero]
      · have hp1 : rowPat d d.NX c r = true := by
          have := eqPat_split d A hS hN hD (r := r) hc
          rw [hp, decide_eq_true hcx, Bool.true_and, Bool.eq_false_iff.2 hq, Bool.or_false] at this
          exact this
        rw [if_pos hp1, if_neg hq]
        by_cases hm : r % d.NX = c % d.NX
        · rw [if_pos (show c < d.VARX ∧ r % d.NX = c % d.NX from ⟨hcx, hm⟩), keepB_false, zero_add]
          unfold diffPat at hq
          rw [decide_eq_true (show r < d.VARX from hr), decide_eq_true hm] at hq
          simpa using hq
        · rw [if_neg fun hh : c < d.VARX ∧ r % d.NX = c % d.NX => hm hh.2, zero_add]
    · rw [decide_eq_false hcx, Bool.false_and, if_neg (fun hh : c < d.VARX ∧ r % d.NX = c % d.NX => hcx hh.1), zero_add]
      have hp1 : rowPat d d.NX c r = true := by
        have := eqPat_split d A hS hN hD (r := r) hc
        rw [hp, decide_eq_false hcx, Bool.false_and, Bool.or_false] at this
        exact this
      rw [if_pos hp1, if_neg (by decide)]

/-! ### Updates -/

/-- `nnz_count` when node `t` is written. -/
def cntAt (d : Dims) (t : ℕ) : ℕ := if t = 0 then 0 else (t - 1) % d.N + 1

theorem cntAt_lo (d : Dims) (t : ℕ) : cntAt d t = t - lo d t := by
  unfold cntAt lo
  have := Nat.div_add_mod (t - 1) d.N
  rw [Nat.mul_comm] at this
  split_ifs with h
  · subst h; simp
  · omega

theorem cntAt_step (d : Dims) (hN : 1 ≤ d.N) (t : ℕ) : (if d.N < cntAt d t + 1 then 1 else cntAt d t + 1) = cntAt d (t + 1) := by
  unfold cntAt
  rw [if_neg (show ¬ t + 1 = 0 by omega), Nat.add_sub_cancel]
  by_cases h : t = 0
  · subst h
    rw [if_pos rfl, if_neg (by omega), Nat.zero_mod]
  · rw [if_neg h]
    have hm := Nat.mod_lt (t - 1) (show d.N > 0 by omega)
    obtain ⟨u, rfl⟩ : ∃ u, t = u + 1 := ⟨t - 1, by omega⟩
    rw [Nat.add_sub_cancel] at hm ⊢
    have hdm := Nat.div_add_mod u d.N
    by_cases h2 : u % d.N + 1 = d.N
    · rw [if_pos (by omega)]
      have : (u + 1) % d.N = 0 := by
        refine Nat.mod_eq_zero_of_dvd ⟨u / d.N + 1, ?_⟩
        rw [Nat.mul_add]; omega
      rw [this]
    · rw [if_neg (by omega)]
      have : (u + 1) % d.N = u % d.N + 1 := by
        conv_lhs => rw [← hdm, Nat.add_assoc, Nat.mul_add_mod]
        exact Nat.mod_eq_of_lt (by omega)
      rw [this]

theorem loop_cnt (d : Dims) (hN : 1 ≤ d.N) (m : ℕ) (ops : ℕ → ℕ → List (Op K)) (J : Csc K) (n : ℕ) :
    loop n (fun t (s : Option (Csc K) × ℕ) => (s.1.bind (runOps m (ops t (if d.N < s.2 then 1 else s.2))), (if d.N < s.2 then 1 else s.2) + 1)) (some J, 0)
      = (runOps m ((List.range n).flatMap fun t => ops t (cntAt d t)) J, if n = 0 then 0 else cntAt d (n - 1) + 1) := by
  induction n with
  | zero => rfl
  | succ n ih =>
    rw [loop_succ, ih]
    dsimp only
    have e : (if d.N < (if n = 0 then 0 else cntAt d (n - 1) + 1) then 1 else (if n = 0 then 0 else cntAt d (n - 1) + 1)) = cntAt d n := by
      by_cases h : n = 0
      · subst h; rfl
      · rw [if_neg h]
        obtain ⟨k, rfl⟩ : ∃ k, n = k + 1 := ⟨n - 1, by omega⟩
        exact cntAt_step d hN k
    rw [e, List.range_succ, List.flatMap_append, runOps_append]
    simp

theorem Holds.puts {A : Csc K} {n m : ℕ} {P : ℕ → ℕ → Bool} {M : ℕ → ℕ → K} (h : Holds A n m P M) (M' : ℕ → ℕ → K) {c off k : ℕ} {f : ℕ → K}
    (hc : c ≤ n) (hk : 0 < k ∨ off = 0)
    (hq : ∀ q < k, ∃ c' r, c' < n ∧ P c' r = true ∧ A.start c + off + q = A.start c' + rank (P c') r ∧ f q = M' r c') :
    PutsOnly A.start n P M' (Op.put c off k f) := by
  refine ⟨c, off, k, f, rfl, ?_, hq⟩
  rcases Nat.eq_zero_or_pos k with h0 | h0
  · have := h.start_mono hc le_rfl
    omega
  · obtain ⟨c', r, hc', hr, e, _⟩ := hq (k - 1) (by omega)
    have h1 := h.pos_lt hc' hr
    have h2 := h.fit c' hc'
    have h3 := h.start_mono (show c' + 1 ≤ n by omega) le_rfl
    unfold pos at h1
    omega

/-- Start of a control column. -/
theorem start_u (d : Dims) (n : ℕ) (z s : ℕ → ℕ) (hs : ∀ c ≤ d.VAR, s c = ∑ i ∈ Finset.range c, z i)
    (hz : ∀ c, d.VARX ≤ c → c < d.VARX + d.VARU → z c = n) {t a : ℕ} (ht : t < d.NN) (ha : a ≤ d.NU) :
    s (t * d.NU + d.VARX + a) = s (t * d.NU + d.VARX) + a * n := by
  have hf := (idx_facts d ht).2
  induction a with
  | zero => simp
  | succ a ih =>
    have := ih (by omega)
    rw [hs _ (by unfold Dims.VAR; omega)] at this
    rw [← Nat.add_assoc, hs _ (by unfold Dims.VAR; omega), Finset.sum_range_succ, this, hz _ (by omega) (by omega), Nat.add_mul, Nat.one_mul,
      Nat.add_assoc]

theorem eqPat_of_rowPat {d : Dims} {c r : ℕ} (h : rowPat d d.NX c r = true) : eqPat d c r = true := by
  unfold eqPat; rw [h, Bool.true_or]

theorem rank_eqPat_col (d : Dims) (hN : 1 ≤ d.N) {t j b : ℕ} (ht : t < d.NN) (hj : j < d.NX) (hb : b < d.NX) :
    rank (eqPat d (t * d.NX + j)) (t * d.NX + b) = cntAt d t + b := by
  obtain ⟨h1, h2, h3⟩ := lo_hi hN ht
  rw [rank_in_block (fun b hb => by rw [eqPat_x ht hj ht hb]; simp) (by omega), rank_eqPat_x hN ht hj (by omega), if_neg (by omega), cntAt_lo,
    Nat.min_eq_left (by omega), Nat.add_zero]

theorem rank_rowPat_u (d : Dims) {n t a b : ℕ} (ht : t < d.NN) (ha : a < d.NU) (hb : b < n) :
    rank (rowPat d n (t * d.NU + d.VARX + a)) (t * n + b) = b := by
  rw [rank_in_block (fun b hb => by rw [rowPat_at d ht hb, hitB_u d ht ht ha]; simp) (by omega),
    rank_rowPat_block d (fun t' ht' => hitB_u d ht ht' ha) (by omega), if_neg (by omega), Nat.zero_add]

theorem rank_rowPat_x (d : Dims) {n t a b : ℕ} (ht : t < d.NN) (ha : a < d.NX) (hb : b < n) :
    rank (rowPat d n (t * d.NX + a)) (t * n + b) = b := by
  rw [rank_in_block (fun b hb => by rw [rowPat_at d ht hb, hitB_x d ht ht ha]; simp) (by omega),
    rank_rowPat_block d (fun t' ht' => hitB_x d ht ht' ha) (by omega), if_neg (by omega), Nat.zero_add]

theorem nodeIdx_x (d : Dims) (t : ℕ) {a : ℕ} (ha : a < d.NX) : nodeIdx d t a = t * d.NX + a := by unfold nodeIdx; rw [if_pos ha]
theorem nodeIdx_u (d : Dims) (t : ℕ) {a : ℕ} (ha : a < d.NU) : nodeIdx d t (d.NX + a) = t * d.NU + d.VARX + a := by
  unfold nodeIdx; rw [if_neg (by omega), if_pos (by omega)]; omega
theorem nodeIdx_p (d : Dims) (t a : ℕ) : nodeIdx d t (d.NX + d.NU + a) = d.VARX + d.VARU + a := by
  unfold nodeIdx; rw [if_neg (by omega), if_neg (by omega)]; omega

theorem scatter_x (d : Dims) {t a : ℕ} (g : ℕ → K) (ht : t < d.NN) (ha : a < d.NX) : scatter d t g (t * d.NX + a) = g a := by
  rw [← nodeIdx_x d t ha, scatter_at d g ht (by unfold Dims.M; omega)]
theorem scatter_u (d : Dims) {t a : ℕ} (g : ℕ → K) (ht : t < d.NN) (ha : a < d.NU) : scatter d t g (t * d.NU + d.VARX + a) = g (d.NX + a) := by
  rw [← nodeIdx_u d t ha, scatter_at d g ht (by unfold Dims.M; omega)]
theorem scatter_p (d : Dims) {t a : ℕ} (g : ℕ → K) (ht : t < d.NN) (ha : a < d.NP) : scatter d t g (d.VARX + d.VARU + a) = g (d.NX + d.NU + a) := by
  rw [← nodeIdx_p d t a, scatter_at d g ht (by unfold Dims.M; omega)]

theorem div_mod_flat {n m q : ℕ} (h : q < n * m) : q / n < m ∧ q % n < n ∧ q / n * n + q % n = q := by
  have hn : 0 < n := by rcases Nat.eq_zero_or_pos n with h0 | h0; · subst h0; omega
                        · exact h0
  exact ⟨Nat.div_lt_of_lt_mul h, Nat.mod_lt _ hn, by rw [Nat.mul_comm]; exact Nat.div_add_mod q n⟩

set_option maxHeartbeats 1000000 in
theorem eqPut_all (d : Dims) (hX : 0 < d.NX) (hS : 1 ≤ d.S) (hN : 1 ≤ d.N) (W : ℕ → ℕ → ℕ → K) {J : Csc K} {M : ℕ → ℕ → K}
    (h : Holds J d.VAR d.NEQ (eqPat d) M) (hst : ∀ c ≤ d.VAR, J.start c = ∑ i ∈ Finset.range c, eqNnz d i) :
    ∃ J', runOps d.VAR ((List.range d.NN).flatMap fun t => eqPut d t (cntAt d t) (W t)) J = some J' ∧ J'.start = J.start ∧
      Holds J' d.VAR d.NEQ (eqPat d) fun r c => if rowPat d d.NX c r then scatter d (r / d.NX) (W (r / d.NX) (r % d.NX)) c else M r c := by
  have hV : d.VAR = d.VARX + d.VARU + d.NP := rfl
  have hu : ∀ {t a : ℕ}, t < d.NN → a ≤ d.NU → J.start (t * d.NU + d.VARX + a) = J.start (t * d.NU + d.VARX) + a * d.NX := fun ht ha =>
    start_u d d.NX (eqNnz d) J.start hst (fun c h1 h2 => by rw [eqNnz_rest d hS h1 (by omega), if_pos h2]) ht ha
  obtain ⟨J', M'', e, s, h1, h2⟩ := h.putAll
    (fun r c => if rowPat d d.NX c r then scatter d (r / d.NX) (W (r / d.NX) (r % d.NX)) c else M r c)
    ((List.range d.NN).flatMap fun t => eqPut d t (cntAt d t) (W t)) (by
    intro op hop
    obtain ⟨t, ht, hop⟩ := List.mem_flatMap.1 hop
    have ht := List.mem_range.1 ht
    obtain ⟨f1, f2⟩ := idx_facts d ht
    unfold eqPut at hop
    rcases List.mem_append.1 hop with hop | hop
    · obtain ⟨j, hj, rfl⟩ := List.mem_map.1 hop
      have hj := List.mem_range.1 hj
      have hx := xIdx_lt d ht hj
      refine Holds.puts h _ (by omega) (Or.inl hX) fun b hb => ⟨t * d.NX + j, t * d.NX + b, by omega, ?_, ?_, ?_⟩
      · rw [eqPat_x ht hj ht hb]; simp
      · rw [rank_eqPat_col d hN ht hj hb]; omega
      · rw [if_pos (by rw [rowPat_at d ht hb, hitB_x d ht ht hj]; simp), blk_div t hb, blk_mod t hb, scatter_x d _ ht hj]
    rcases List.mem_cons.1 hop with rfl | hop
    · refine Holds.puts h _ (by omega) (Or.inr rfl) fun q hq => ?_
      obtain ⟨hq1, hq2, hq3⟩ := div_mod_flat hq
      have hx := uIdx_lt d ht hq1
      generalize q / d.NX = qa at hq1 hq3 hx ⊢
      generalize q % d.NX = qb at hq2 hq3 ⊢
      refine ⟨t * d.NU + d.VARX + qa, t * d.NX + qb, by omega, ?_, ?_, ?_⟩
      · rw [eqPat_rest (by omega), rowPat_at d ht hq2, hitB_u d ht ht hq1]; simp
      · rw [show eqPat d (t * d.NU + d.VARX + qa) = rowPat d d.NX (t * d.NU + d.VARX + qa) from
          funext fun r => eqPat_rest (by omega), rank_rowPat_u d ht hq1 hq2, hu ht (by omega)]
        omega
      · rw [if_pos (by rw [rowPat_at d ht hq2, hitB_u d ht ht hq1]; simp), blk_div t hq2, blk_mod t hq2, scatter_u d _ ht hq1]
    · obtain ⟨j, hj, rfl⟩ := List.mem_map.1 hop
      have hj := List.mem_range.1 hj
      have ec : j + d.VARX + d.VARU = d.VARX + d.VARU + j := by omega
      refine Holds.puts h _ (by omega) (Or.inl hX) fun b hb => ⟨d.VARX + d.VARU + j, t * d.NX + b, by omega, ?_, ?_, ?_⟩
      · rw [eqPat_rest (by omega), rowPat_at d ht hb, hitB_p d hj]
      · rw [show eqPat d (d.VARX + d.VARU + j) = rowPat d d.NX (d.VARX + d.VARU + j) from
          funext fun r => eqPat_rest (by omega), rank_rowPat_p d hj (by have := xIdx_lt d ht hb; exact le_of_lt this), ec]
        omega
      · rw [if_pos (by rw [rowPat_at d ht hb, hitB_p d hj]), blk_div t hb, blk_mod t hb, scatter_p d _ ht hj,
          show j + d.NX + d.NU = d.NX + d.NU + j by omega])
  refine ⟨J', e, s, h1.congr fun c hc r hr hp => ?_⟩
  rcases h2 c hc r hp with h3 | ⟨h3, h4⟩
  · exact h3
  · rw [h3]
    by_cases hrow : rowPat d d.NX c r = true
    · exfalso
      obtain ⟨t, b, ht, hb, rfl⟩ := blk_split (show r < d.NX * d.NN from hr)
      have hin : ∀ op ∈ eqPut d t (cntAt d t) (W t), ¬ Covers J.start op (pos J (eqPat d) c (t * d.NX + b)) := fun op hop =>
        h4 op (List.mem_flatMap.2 ⟨t, List.mem_range.2 ht, hop⟩)
      unfold eqPut at hin
      rw [rowPat_at d ht hb] at hrow
      rcases col_cases d hc with ⟨t', a, ht', ha, rfl⟩ | ⟨t', a, ht', ha, rfl⟩ | ⟨a, ha, rfl⟩
      · rw [hitB_x d ht' ht ha, decide_eq_true_eq] at hrow
        subst hrow
        refine hin _ (List.mem_append_left _ (List.mem_map.2 ⟨a, List.mem_range.2 ha, rfl⟩)) ⟨_, _, _, _, rfl, ?_⟩
        unfold pos
        rw [rank_eqPat_col d hN ht ha hb]
        omega
      · rw [hitB_u d ht' ht ha, decide_eq_true_eq] at hrow
        subst hrow
        refine hin _ (List.mem_append_right _ List.mem_cons_self) ⟨_, _, _, _, rfl, ?_⟩
        unfold pos
        rw [show eqPat d (t * d.NU + d.VARX + a) = rowPat d d.NX (t * d.NU + d.VARX + a) from
          funext fun r => eqPat_rest (by omega), rank_rowPat_u d ht ha hb, hu ht (by omega)]
        have := mul_step (n := d.NX) ha
        rw [Nat.mul_comm d.NX d.NU]
        omega
      · refine hin _ (List.mem_append_right _ (List.mem_cons_of_mem _ (List.mem_map.2 ⟨a, List.mem_range.2 ha, rfl⟩))) ⟨_, _, _, _, rfl, ?_⟩
        unfold pos
        rw [show eqPat d (d.VARX + d.VARU + a) = rowPat d d.NX (d.VARX + d.VARU + a) from
          funext fun r => eqPat_rest (by omega), rank_rowPat_p d ha (by have := xIdx_lt d ht hb; exact le_of_lt this),
          show a + d.VARX + d.VARU = d.VARX + d.VARU + a by omega]
        omega
    · rw [if_neg hrow]

/-- Adding a diagonal to existing entries. -/
theorem coeffAdd_diag {n m : ℕ} {P : ℕ → ℕ → Bool} {A : Csc K} {M : ℕ → ℕ → K} (h : Holds A n m P M) (g : ℕ → K) (k : ℕ)
    (hk : ∀ i < k, i < n ∧ P i i = true) :
    ∃ A', loop k (fun i (J : Option (Csc K)) => J.bind fun J : Csc K => J.coeffAdd i i (g i)) (some A) = some A' ∧ A'.start = A.start ∧
      Holds A' n m P fun r c => if r = c ∧ c < k then M r c + g c else M r c := by
  induction k with
  | zero => exact ⟨A, rfl, rfl, h.congr fun c _ r _ _ => by rw [if_neg (by omega)]⟩
  | succ k ih =>
    obtain ⟨A1, e1, s1, h1⟩ := ih fun i hi => hk i (by omega)
    obtain ⟨h2, h3⟩ := hk k (by omega)
    obtain ⟨A2, e2, s2, _, h4⟩ := h1.coeffAdd (g k) h2 h3
    refine ⟨A2, by rw [loop_succ, e1]; exact e2, by rw [s2, s1], h4.congr fun c hc r hr hp => ?_⟩
    by_cases hck : c = k ∧ r = k
    · rw [if_pos hck, if_neg (by omega), if_pos (by omega), hck.1]
    · rw [if_neg hck]
      by_cases hrc : r = c ∧ c < k
      · rw [if_pos hrc, if_pos (by omega)]
      · rw [if_neg hrc, if_neg (by omega)]

theorem eqLinUpdate_form (d : Dims) (A : Approx K) (hX : 0 < d.NX) (hS : 1 ≤ d.S) (hN : 1 ≤ d.N) (cb : Cbs d K) (o : Obj d K)
    (junk : ℕ → ℕ → K) (var c0 : ℕ → K) {J : Csc K} {W0 : ℕ → ℕ → ℕ → K} (hJ : EqForm d A W0 J) :
    ∃ J', eqLinUpdate d A cb o junk var c0 J = some (cT d A cb o junk var c0 d.NN, J', { o with adY := yT d cb o var d.NN }) ∧
      EqForm d A (fun k b i => -tScale d o * derAt (yT d cb o var (k + 1) b) i) J' := by
  set V : ℕ → ℕ → ℕ → K := fun k b i => derAt (yT d cb o var (k + 1) b) i * -tScale d o with hV
  have h := loop_trace (fun t y => cb.dynAD (node d var t) (o.time t) y)
    (fun t y c => addSeg (setSeg c (t * d.NX) d.NX fun i => -tScale d o * (y i).val) (t * d.NX) d.NX fun i => diffX d A var junk t i)
    (fun t y (s : Option (Csc K) × ℕ) => (s.1.bind (runOps d.VAR (eqPut d t (if d.N < s.2 then 1 else s.2) fun j m => derAt (y j) m * -tScale d o)),
      (if d.N < s.2 then 1 else s.2) + 1))
    o.adY c0 (some J, 0) d.NN
  have e : eqLinUpdate d A cb o junk var c0 J = _ := congrArg (fun s : (ℕ → Dual d.M K) × (ℕ → K) × Option (Csc K) × ℕ =>
    (loop d.VARX (fun i (J : Option (Csc K)) => J.bind fun J : Csc K => J.coeffAdd i i (diffMatDiag d A i)) s.2.2.1).map
      fun J => (s.2.1, J, ({ o with adY := s.1 } : Obj d K))) h
  rw [e]
  dsimp only
  have el := loop_cnt d hN d.VAR (fun t cnt => eqPut d t cnt (V t)) J d.NN
  obtain ⟨J1, e1, s1, h1⟩ := eqPut_all d hX hS hN V hJ.holds hJ.start
  rw [e1] at el
  rw [show loop d.NN (fun t (s : Option (Csc K) × ℕ) => (s.1.bind (runOps d.VAR (eqPut d t (if d.N < s.2 then 1 else s.2) fun j m =>
      derAt (loop (t + 1) (fun t y => cb.dynAD (node d var t) (o.time t) y) o.adY j) m * -tScale d o)),
      (if d.N < s.2 then 1 else s.2) + 1)) (some J, 0) = _ from el]
  have hdiag : ∀ i < d.VARX, rowPat d d.NX i i = true := fun i hi => by
    obtain ⟨t, a, ht, ha, rfl⟩ := blk_split hi
    rw [rowPat_at d ht ha, hitB_x d ht ht ha]; simp
  obtain ⟨J2, e2, s2, h2⟩ := coeffAdd_diag h1 (diffMatDiag d A) d.VARX fun i hi => ⟨by unfold Dims.VAR; omega, eqPat_of_rowPat (hdiag i hi)⟩
  refine ⟨J2, ?_, ?_, fun c hc => by rw [s2, s1, hJ.start c hc]⟩
  · dsimp only
    rw [e2]; rfl
  · refine h2.congr fun c hc r hr hp => ?_
    have eV : scatter d (r / d.NX) (V (r / d.NX) (r % d.NX)) c
        = scatter d (r / d.NX) (fun i => -tScale d o * derAt (yT d cb o var (r / d.NX + 1) (r % d.NX)) i) c :=
      congrArg (fun g => scatter d (r / d.NX) g c) (funext fun i => mul_comm _ _)
    unfold eqTgt
    rw [← eV]
    by_cases hrow : rowPat d d.NX c r = true
    · rw [if_pos hrow]
      by_cases hrc : r = c ∧ c < d.VARX
      · rw [if_pos hrc, diffMatDiag_eq d A hrc.2, hrc.1, add_comm]
        congr 1
        unfold diffPart
        rw [if_pos ⟨hrc.2, rfl⟩]
      · rw [if_neg hrc]
        have : diffPart d A r c = 0 := by
          unfold diffPart
          refine if_neg fun hh => hrc ⟨?_, hh.1⟩
          obtain ⟨t, a, ht, ha, rfl⟩ := blk_split hh.1
          obtain ⟨k, b, hk, hb, rfl⟩ := blk_split (show r < d.NX * d.NN from hr)
          rw [rowPat_at d hk hb, hitB_x d ht hk ha, decide_eq_true_eq] at hrow
          have := hh.2
          rw [blk_mod t ha, blk_mod k hb] at this
          rw [this, hrow]
        rw [this, zero_add]
    · rw [if_neg hrow, if_neg fun hh : r = c ∧ c < d.VARX => hrow (by rw [hh.1]; exact hdiag c hh.2)]
      rw [scatter_miss d hc hr (Bool.eq_false_iff.2 hrow), scatter_miss d hc hr (Bool.eq_false_iff.2 hrow)]

/-! ### Inequality constraints -/

/-- `m_ad_g` before node `k`. -/
def gT (d : Dims) (cb : Cbs d K) (o : Obj d K) (var : ℕ → K) (n : ℕ) : ℕ → Dual d.M K :=
  loop n (fun t g => cb.ineqAD (node d var t) (o.time t) g) o.adG

/-- Constraint values after `n` nodes. -/
def cgT (d : Dims) (cb : Cbs d K) (o : Obj d K) (var c0 : ℕ → K) (n : ℕ) : ℕ → K :=
  loop n (fun t c => setSeg c (t * d.NG) d.NG fun i => (gT d cb o var (t + 1) i).val) c0

/-- Entries of the inequality Jacobian when the block of node `k` is `W k`. -/
def ineqTgt (d : Dims) (W : ℕ → ℕ → ℕ → K) (r c : ℕ) : K := scatter d (r / d.NG) (W (r / d.NG) (r % d.NG)) c

/-- A matrix with the pattern of the inequality Jacobian and values `M`, stored without gaps. -/
structure IneqForm (d : Dims) (M : ℕ → ℕ → K) (J : Csc K) : Prop where
  holds : Holds J d.VAR d.NINEQ (rowPat d d.NG) M
  start : ∀ c ≤ d.VAR, J.start c = ∑ i ∈ Finset.range c, ineqNnz d i

theorem inequalitiesLin_trace (d : Dims) (cb : Cbs d K) (o : Obj d K) (var c0 : ℕ → K) :
    (inequalitiesLin d cb o var c0).1 = cgT d cb o var c0 d.NN ∧
    (inequalitiesLin d cb o var c0).2.2 = { o with adG := gT d cb o var d.NN } ∧
    ∀ k < d.NN, ∀ b < d.NG, ∀ c < d.VAR,
      (inequalitiesLin d cb o var c0).2.1 (k * d.NG + b) c = scatter d k (fun i => derAt (gT d cb o var (k + 1) b) i) c := by
  have h := loop_trace (fun t g => cb.ineqAD (node d var t) (o.time t) g)
    (fun t g c => setSeg c (t * d.NG) d.NG fun i => (g i).val)
    (fun k g (J : ℕ → ℕ → K) => setBlock (setBlock (setBlock J (k * d.NG) (k * d.NX) d.NG d.NX fun r m => derAt (g r) m)
      (k * d.NG) (k * d.NU + d.VARX) d.NG d.NU fun r m => derAt (g r) (d.NX + m))
      (k * d.NG) (d.VARX + d.VARU) d.NG d.NP fun r m => derAt (g r) (d.NX + d.NU + m))
    o.adG c0 (fun _ _ => 0) d.NN
  have e : inequalitiesLin d cb o var c0 = _ := congrArg (fun s : (ℕ → Dual d.M K) × (ℕ → K) × (ℕ → ℕ → K) =>
    (s.2.1, s.2.2, ({ o with adG := s.1 } : Obj d K))) h
  rw [e]
  refine ⟨rfl, rfl, fun k hk b hb c hc => ?_⟩
  dsimp only
  refine loop_one (fun J : ℕ → ℕ → K => J (k * d.NG + b) c) hk _ _ ?_ ?_
  · intro t ht hne s
    exact setRows_off d s hne hb _ _ _ _ _ _ _ _ _ c
  · intro s hs
    exact setRows_apply d s hk hb (fun r m => derAt (gT d cb o var (k + 1) r) m) hc hs

theorem ineqLinFresh_form (d : Dims) (cb : Cbs d K) (o : Obj d K) (var c0 : ℕ → K) (J : Csc K) :
    ∃ J', ineqLinFresh d cb o var c0 J = some (cgT d cb o var c0 d.NN, J', { o with adG := gT d cb o var d.NN }) ∧
      IneqForm d (ineqTgt d fun k b i => derAt (gT d cb o var (k + 1) b) i) J' := by
  set V : ℕ → ℕ → ℕ → K := fun k b i => derAt (gT d cb o var (k + 1) b) i with hV
  have h := loop_trace (fun t g => cb.ineqAD (node d var t) (o.time t) g)
    (fun t g c => setSeg c (t * d.NG) d.NG fun i => (g i).val)
    (fun t g (J : Option (Csc K)) => J.bind (runOps d.VAR (ineqIns d t fun j m => derAt (g j) m)))
    o.adG c0 (some (J.reserve (ineqNnz d))) d.NN
  have e : ineqLinFresh d cb o var c0 J = _ := congrArg (fun s : (ℕ → Dual d.M K) × (ℕ → K) × Option (Csc K) =>
    s.2.2.map fun J => (s.2.1, J, ({ o with adG := s.1 } : Obj d K))) h
  rw [e]
  dsimp only
  have el := loop_runOps d.NN d.VAR (fun t => ineqIns d t (V t)) (J.reserve (ineqNnz d))
  have e1 : ((List.range d.NN).flatMap fun t => ineqIns d t (V t)) = (allIns d d.NG V).map fun e => Op.ins e.1 e.2.1 e.2.2 := by
    unfold allIns
    rw [List.map_flatMap]
    refine congrArg (fun f => List.flatMap f (List.range d.NN)) (funext fun t => ?_)
    unfold ineqIns nodeIns
    rw [List.map_flatMap]
    refine congrArg (fun f => List.flatMap f (List.range d.NG)) (funext fun j => ?_)
    simp [List.map_append, List.map_map, Function.comp_def]
  rw [e1] at el
  obtain ⟨J1, e2, s2, h2⟩ := fill d d.NG V J (ineqNnz d) fun c hc => by rw [ineqNnz_rank hc]; exact le_rfl
  rw [e2] at el
  rw [show loop d.NN (fun t (τ : Option (Csc K)) => τ.bind (runOps d.VAR (ineqIns d t fun j m =>
    derAt (loop (t + 1) (fun t g => cb.ineqAD (node d var t) (o.time t) g) o.adG j) m))) (some (J.reserve (ineqNnz d))) = some J1 from el]
  exact ⟨J1, rfl, h2, fun c _ => by rw [s2]; rfl⟩

/-- What the copies of the update leave at row `r`, column `c`, when the temporary of node `k` is `W k`. -/
def ineqCopied (d : Dims) (W : ℕ → ℕ → ℕ → K) (r c : ℕ) : K :=
  if c < d.VARX then W (r / d.NG) ((c % d.NX * d.NG + r % d.NG) % d.NX) ((c % d.NX * d.NG + r % d.NG) / d.NX)
  else if c < d.VARX + d.VARU then
    W (r / d.NG) (((c - d.VARX) % d.NU * d.NG + r % d.NG) % d.NX) (d.NX + ((c - d.VARX) % d.NU * d.NG + r % d.NG) / d.NX)
  else W (r / d.NG) (r % d.NG) (d.NX + d.NU + (c - (d.VARX + d.VARU)))

theorem ineqNnz_block (d : Dims) {c : ℕ} (hc : c < d.VARX + d.VARU) : ineqNnz d c = d.NG := by
  rw [ineqNnz_eq d (by unfold Dims.VAR; omega), if_pos hc]

theorem start_x (d : Dims) (n : ℕ) (z s : ℕ → ℕ) (hs : ∀ c ≤ d.VAR, s c = ∑ i ∈ Finset.range c, z i)
    (hz : ∀ c < d.VARX, z c = n) {t a : ℕ} (ht : t < d.NN) (ha : a ≤ d.NX) : s (t * d.NX + a) = s (t * d.NX) + a * n := by
  have hf := (idx_facts d ht).1
  induction a with
  | zero => simp
  | succ a ih =>
    have := ih (by omega)
    rw [hs _ (by unfold Dims.VAR; omega)] at this
    rw [← Nat.add_assoc, hs _ (by unfold Dims.VAR; omega), Finset.sum_range_succ, this, hz _ (by omega), Nat.add_mul, Nat.one_mul, Nat.add_assoc]

set_option maxHeartbeats 1000000 in
theorem ineqPut_all (d : Dims) (hG : 0 < d.NG) (W : ℕ → ℕ → ℕ → K) {J : Csc K} {M : ℕ → ℕ → K} (h : IneqForm d M J) :
    ∃ J', runOps d.VAR ((List.range d.NN).flatMap fun t => ineqPut d t (W t)) J = some J' ∧ IneqForm d (ineqCopied d W) J' := by
  have hV : d.VAR = d.VARX + d.VARU + d.NP := rfl
  have hu : ∀ {t a : ℕ}, t < d.NN → a ≤ d.NU → J.start (t * d.NU + d.VARX + a) = J.start (t * d.NU + d.VARX) + a * d.NG := fun ht ha =>
    start_u d d.NG (ineqNnz d) J.start h.start (fun c h1 h2 => ineqNnz_block d h2) ht ha
  have hx : ∀ {t a : ℕ}, t < d.NN → a ≤ d.NX → J.start (t * d.NX + a) = J.start (t * d.NX) + a * d.NG := fun ht ha =>
    start_x d d.NG (ineqNnz d) J.start h.start (fun c h1 => ineqNnz_block d (by omega)) ht ha
  have hp : ∀ {t b : ℕ}, t < d.NN → b < d.NG → t * d.NG + b < d.NG * d.NN := fun ht hb => by
    rw [Nat.mul_comm d.NG]; exact blk_le hb ht
  obtain ⟨J', M'', e, s, h1, h2⟩ := h.holds.putAll (ineqCopied d W)
    ((List.range d.NN).flatMap fun t => ineqPut d t (W t)) (by
    intro op hop
    obtain ⟨t, ht, hop⟩ := List.mem_flatMap.1 hop
    have ht := List.mem_range.1 ht
    obtain ⟨f1, f2⟩ := idx_facts d ht
    unfold ineqPut at hop
    rcases List.mem_cons.1 hop with rfl | hop
    · refine Holds.puts h.holds _ (by omega) (Or.inr rfl) fun q hq => ?_
      obtain ⟨hq1, hq2, hq3⟩ := div_mod_flat hq
      have hxi := xIdx_lt d ht hq1
      generalize q / d.NG = qa at hq1 hq3 hxi ⊢
      generalize q % d.NG = qb at hq2 hq3 ⊢
      refine ⟨t * d.NX + qa, t * d.NG + qb, by omega, ?_, ?_, ?_⟩
      · rw [rowPat_at d ht hq2, hitB_x d ht ht hq1]; simp
      · rw [rank_rowPat_x d ht hq1 hq2, hx ht (by omega)]
        omega
      · unfold ineqCopied
        rw [if_pos hxi, blk_div t hq2, blk_mod t hq2, blk_mod t hq1, hq3]
    rcases List.mem_cons.1 hop with rfl | hop
    · refine Holds.puts h.holds _ (by omega) (Or.inr rfl) fun q hq => ?_
      obtain ⟨hq1, hq2, hq3⟩ := div_mod_flat hq
      have hxi := uIdx_lt d ht hq1
      generalize q / d.NG = qa at hq1 hq3 hxi ⊢
      generalize q % d.NG = qb at hq2 hq3 ⊢
      refine ⟨t * d.NU + d.VARX + qa, t * d.NG + qb, by omega, ?_, ?_, ?_⟩
      · rw [rowPat_at d ht hq2, hitB_u d ht ht hq1]; simp
      · rw [rank_rowPat_u d ht hq1 hq2, hu ht (by omega)]
        omega
      · unfold ineqCopied
        rw [if_neg (by omega), if_pos (by omega), blk_div t hq2, blk_mod t hq2,
          show t * d.NU + d.VARX + qa - d.VARX = t * d.NU + qa by omega, blk_mod t hq1, hq3]
    · obtain ⟨j, hj, rfl⟩ := List.mem_map.1 hop
      have hj := List.mem_range.1 hj
      have ec : j + d.VARX + d.VARU = d.VARX + d.VARU + j := by omega
      refine Holds.puts h.holds _ (by omega) (Or.inl hG) fun b hb => ⟨d.VARX + d.VARU + j, t * d.NG + b, by omega, ?_, ?_, ?_⟩
      · rw [rowPat_at d ht hb, hitB_p d hj]
      · rw [rank_rowPat_p d hj (le_of_lt (hp ht hb)), ec]
        omega
      · unfold ineqCopied
        rw [if_neg (by omega), if_neg (by omega), blk_div t hb, blk_mod t hb, Nat.add_sub_cancel_left,
          show j + d.NX + d.NU = d.NX + d.NU + j by omega])
  refine ⟨J', e, h1.congr fun c hc r hr hpt => ?_, fun c hc => by rw [s]; exact h.start c hc⟩
  rcases h2 c hc r hpt with h3 | ⟨h3, h4⟩
  · exact h3
  · exfalso
    obtain ⟨t, b, ht, hb, rfl⟩ := blk_split (show r < d.NG * d.NN from hr)
    have hin : ∀ op ∈ ineqPut d t (W t), ¬ Covers J.start op (pos J (rowPat d d.NG) c (t * d.NG + b)) := fun op hop =>
      h4 op (List.mem_flatMap.2 ⟨t, List.mem_range.2 ht, hop⟩)
    unfold ineqPut at hin
    rw [rowPat_at d ht hb] at hpt
    rcases col_cases d hc with ⟨t', a, ht', ha, rfl⟩ | ⟨t', a, ht', ha, rfl⟩ | ⟨a, ha, rfl⟩
    · rw [hitB_x d ht' ht ha, decide_eq_true_eq] at hpt
      subst hpt
      refine hin _ List.mem_cons_self ⟨_, _, _, _, rfl, ?_⟩
      unfold pos
      rw [rank_rowPat_x d ht ha hb, hx ht (by omega)]
      have := mul_step (n := d.NG) ha
      rw [Nat.mul_comm d.NG d.NX]
      omega
    · rw [hitB_u d ht' ht ha, decide_eq_true_eq] at hpt
      subst hpt
      refine hin _ (List.mem_cons_of_mem _ List.mem_cons_self) ⟨_, _, _, _, rfl, ?_⟩
      unfold pos
      rw [rank_rowPat_u d ht ha hb, hu ht (by omega)]
      have := mul_step (n := d.NG) ha
      rw [Nat.mul_comm d.NG d.NU]
      omega
    · refine hin _ (List.mem_cons_of_mem _ (List.mem_cons_of_mem _ (List.mem_map.2 ⟨a, List.mem_range.2 ha, rfl⟩))) ⟨_, _, _, _, rfl, ?_⟩
      unfold pos
      rw [rank_rowPat_p d ha (le_of_lt (hp ht hb)), show a + d.VARX + d.VARU = d.VARX + d.VARU + a by omega]
      omega

/-- The temporary of the update at node `k`. -/
def jacT (d : Dims) (cb : Cbs d K) (o : Obj d K) (var : ℕ → K) (jac0 : ℕ → ℕ → K) (k r m : ℕ) : K :=
  if r < d.NG then derAt (gT d cb o var (k + 1) r) m else jac0 r m

theorem ineqLinUpdate_form (d : Dims) (hG : 0 < d.NG) (hle : d.NG ≤ d.NX) (cb : Cbs d K) (o : Obj d K) (jac0 : ℕ → ℕ → K) (var c0 : ℕ → K)
    {J : Csc K} {M : ℕ → ℕ → K} (h : IneqForm d M J) :
    ∃ J', ineqLinUpdate d cb o jac0 var c0 J = some (cgT d cb o var c0 d.NN, J', { o with adG := gT d cb o var d.NN }) ∧
      IneqForm d (ineqCopied d (jacT d cb o var jac0)) J' := by
  have ht := loop_trace (fun t g => cb.ineqAD (node d var t) (o.time t) g)
    (fun t g c => setSeg c (t * d.NG) d.NG fun i => (g i).val)
    (fun t g (s : Option (Csc K) × (ℕ → ℕ → K)) => (s.1.bind (runOps d.VAR (ineqPut d t fun r m => if r < d.NG then derAt (g r) m else s.2 r m)),
      fun r m => if r < d.NG then derAt (g r) m else s.2 r m))
    o.adG c0 (some J, jac0) d.NN
  have e : ineqLinUpdate d cb o jac0 var c0 J = _ := (if_neg (by omega)).trans
    (congrArg (fun s : (ℕ → Dual d.M K) × (ℕ → K) × Option (Csc K) × (ℕ → ℕ → K) =>
    s.2.2.1.map fun J => (s.2.1, J, ({ o with adG := s.1 } : Obj d K))) ht)
  rw [e]
  dsimp only
  have el : ∀ n, loop n (fun t (s : Option (Csc K) × (ℕ → ℕ → K)) =>
      (s.1.bind (runOps d.VAR (ineqPut d t fun r m => if r < d.NG then derAt (gT d cb o var (t + 1) r) m else s.2 r m)),
      fun r m => if r < d.NG then derAt (gT d cb o var (t + 1) r) m else s.2 r m)) (some J, jac0)
      = (runOps d.VAR ((List.range n).flatMap fun t => ineqPut d t (jacT d cb o var jac0 t)) J,
        if n = 0 then jac0 else jacT d cb o var jac0 (n - 1)) := by
    intro n
    induction n with
    | zero => rfl
    | succ n ih =>
      rw [loop_succ, ih]
      have ej : (fun r m => if r < d.NG then derAt (gT d cb o var (n + 1) r) m else (if n = 0 then jac0 else jacT d cb o var jac0 (n - 1)) r m)
          = jacT d cb o var jac0 n := by
        funext r m
        unfold jacT
        by_cases hr : r < d.NG
        · rw [if_pos hr, if_pos hr]
        · rw [if_neg hr, if_neg hr]
          split_ifs
          · rfl
          · dsimp only; rw [if_neg hr]
      dsimp only
      rw [ej, List.range_succ, List.flatMap_append, runOps_append]
      simp
  obtain ⟨J1, e1, h1⟩ := ineqPut_all d hG (jacT d cb o var jac0) h
  refine ⟨J1, ?_, h1⟩
  have el1 := el d.NN
  rw [e1] at el1
  rw [show loop d.NN (fun t (s : Option (Csc K) × (ℕ → ℕ → K)) =>
      (s.1.bind (runOps d.VAR (ineqPut d t fun r m => if r < d.NG then
        derAt (loop (t + 1) (fun t g => cb.ineqAD (node d var t) (o.time t) g) o.adG r) m else s.2 r m)),
      fun r m => if r < d.NG then derAt (loop (t + 1) (fun t g => cb.ineqAD (node d var t) (o.time t) g) o.adG r) m else s.2 r m)) (some J, jac0)
      = _ from el1]
  rfl

/-- With as many path constraints as states the copies are right. -/
theorem ineqCopied_square (d : Dims) (hG : d.NG = d.NX) (cb : Cbs d K) (o : Obj d K) (var : ℕ → K) (jac0 : ℕ → ℕ → K) {r c : ℕ} (hc : c < d.VAR)
    (hr : r < d.NINEQ) (hp : rowPat d d.NG c r = true) :
    ineqCopied d (jacT d cb o var jac0) r c = ineqTgt d (fun k b i => derAt (gT d cb o var (k + 1) b) i) r c := by
  obtain ⟨t, b, ht, hb, rfl⟩ := blk_split (show r < d.NG * d.NN from hr)
  obtain ⟨f1, f2⟩ := idx_facts d ht
  rw [rowPat_at d ht hb] at hp
  unfold ineqCopied ineqTgt
  rw [blk_div t hb, blk_mod t hb]
  have hbX : b < d.NX := by omega
  rcases col_cases d hc with ⟨t', a, ht', ha, rfl⟩ | ⟨t', a, ht', ha, rfl⟩ | ⟨a, ha, rfl⟩
  · rw [hitB_x d ht' ht ha, decide_eq_true_eq] at hp
    subst hp
    rw [if_pos (xIdx_lt d ht ha), blk_mod t ha, scatter_x d _ ht ha, hG, blk_mod a hbX, blk_div a hbX]
    unfold jacT
    rw [if_pos hb]
  · rw [hitB_u d ht' ht ha, decide_eq_true_eq] at hp
    subst hp
    have := uIdx_lt d ht ha
    rw [if_neg (by omega), if_pos (by omega), show t * d.NU + d.VARX + a - d.VARX = t * d.NU + a by omega, blk_mod t ha, scatter_u d _ ht ha, hG,
      blk_mod a hbX, blk_div a hbX]
    unfold jacT
    rw [if_pos hb]
  · rw [if_neg (by omega), if_neg (by omega), Nat.add_sub_cancel_left, scatter_p d _ ht ha]
    unfold jacT
    rw [if_pos hb]

end PolyMPC.Ocp
