import Verif.Lemmas.OcpSparseHess

/-! # Sparse second derivatives: the effect of the accesses for one node -/

namespace PolyMPC.Ocp
open AD Sparse Sparse.Csc

set_option linter.unusedSectionVars false
set_option linter.unusedVariables false

variable {K : Type} [Field K] [DecidableEq K]

/-- The entries of a pattern with their ranks. -/
theorem entry_cases (d : Dims) {T : ℕ} (hT : T ≤ d.NN) {pp : Bool} {c r : ℕ} (h : nodePat d T pp c r = true) :
    (∃ t < T, ∃ i < d.M, ∃ j < d.NX + d.NU, r = nodeIdx d t i ∧ c = nodeIdx d t j ∧ rank (nodePat d T pp c) r = i) ∨
    (∃ t < T, ∃ i < d.NX, ∃ a < d.NP, r = nodeIdx d t i ∧ c = d.VARX + d.VARU + a ∧ rank (nodePat d T pp c) r = t * d.NX + i) ∨
    (∃ t < T, ∃ i < d.NU, ∃ a < d.NP, r = nodeIdx d t (d.NX + i) ∧ c = d.VARX + d.VARU + a ∧
      rank (nodePat d T pp c) r = T * d.NX + (t * d.NU + i)) ∨
    (pp = true ∧ ∃ b < d.NP, ∃ a < d.NP, r = d.VARX + d.VARU + b ∧ c = d.VARX + d.VARU + a ∧
      rank (nodePat d T pp c) r = T * d.NX + T * d.NU + b) := by
  obtain ⟨hr, hc⟩ := nodePat_lt d hT h
  rcases col_node d hc with ⟨t, ht, j, hj, rfl⟩ | ⟨a, ha, rfl⟩
  · left
    have htT : t < T := by
      by_contra hh
      rw [nodePat_late d (by omega) ht hj] at h; exact absurd h (by decide)
    have e : nodePat d T pp (nodeIdx d t j) = hitB d t := funext fun r => nodePat_col d hT htT hj pp r
    rw [e] at h
    obtain ⟨i, hi, rfl⟩ := (hitB_iff d ht hr).1 h
    exact ⟨t, htT, i, hi, j, hj, rfl, rfl, by rw [e, rank_hit d ht hi]⟩
  · right
    obtain ⟨r1, r2, r3⟩ := rank_par d hT ha pp
    rcases (nodePat_par d hT ha pp r).1 h with h1 | ⟨h1, h2⟩ | ⟨h0, h1, h2⟩
    · have h1' := h1
      rw [Nat.mul_comm] at h1'
      obtain ⟨t, i, ht, hi, rfl⟩ := blk_split h1'
      exact Or.inl ⟨t, ht, i, hi, a, ha, (nodeIdx_x d t hi).symm, rfl, r1 _ (by omega)⟩
    · obtain ⟨t, i, ht, hi, e⟩ := blk_split (n := d.NU) (r := r - d.VARX) (m := T) (by rw [Nat.mul_comm]; omega)
      exact Or.inr (Or.inl ⟨t, ht, i, hi, a, ha, by rw [nodeIdx_u d t hi]; omega, rfl, by rw [r2 r h1 (by omega), e]⟩)
    · refine Or.inr (Or.inr ⟨h0, r - (d.VARX + d.VARU), by rw [VAR_eq] at h2; omega, a, ha, by omega, rfl, ?_⟩)
      rw [r3 r h1 (by omega), h0, if_pos rfl]

theorem hesAdd_col (d : Dims) (h : ℕ → ℕ → K) {k t j ρ : ℕ} (hk : k < d.NN) (ht : t < d.NN) (hj : j < d.NX + d.NU) (hρ : ρ < d.M) :
    incOf (hesAdd d k h) (nodeIdx d t j) ρ = if k = t then h ρ j else 0 := by
  by_cases h1 : j < d.NX
  · rw [nodeIdx_x d t h1, hesAdd_x d h hk ht h1 hρ]
  · obtain ⟨a, rfl⟩ := Nat.exists_eq_add_of_le (show d.NX ≤ j by omega)
    rw [nodeIdx_u d t (by omega), hesAdd_u d h hk ht (by omega) hρ]

theorem hesCols_col (d : Dims) (h : ℕ → ℕ → K) {k t j ρ : ℕ} (hk : k < d.NN) (ht : t < d.NN) (hj : j < d.NX + d.NU) (hρ : ρ < d.M) :
    incOf (hesCols d k h) (nodeIdx d t j) ρ = if k = t then h ρ j else 0 := by
  by_cases h1 : j < d.NX
  · rw [nodeIdx_x d t h1, hesCols_x d h hk ht h1 hρ]
  · obtain ⟨a, rfl⟩ := Nat.exists_eq_add_of_le (show d.NX ≤ j by omega)
    rw [nodeIdx_u d t (by omega), hesCols_u d h hk ht (by omega) hρ]

/-- What the additions at a junction do on the first call: the block of controls and parameters is lost. -/
def addH (d : Dims) (h : ℕ → ℕ → K) (i j : ℕ) : K := if (d.NX ≤ i ∧ i < d.NX + d.NU) ∧ d.NX + d.NU ≤ j then 0 else h i j

/-- What the insertions write. -/
def insH (d : Dims) (h : ℕ → ℕ → K) (i j : ℕ) : K :=
  if i < d.NX ∧ d.NX + d.NU ≤ j then h i (j - d.NU + d.NP)
  else if d.NX + d.NU ≤ i ∧ d.NX ≤ j ∧ j < d.NX + d.NU then h i (j - d.NX + d.NU)
  else h i j

theorem blk_if {n i k t : ℕ} (hi : i < n) (f : ℕ → K) :
    (if k * n ≤ t * n + i ∧ t * n + i < k * n + n then f (t * n + i - k * n) else 0) = if k = t then f i else 0 := by
  by_cases e : k = t
  · subst e; rw [if_pos ((blk k k hi).2 rfl), if_pos rfl, Nat.add_sub_cancel_left]
  · rw [if_neg e, if_neg fun hh => e ((blk t k hi).1 hh)]

theorem blk_if' {n i k t o : ℕ} (hi : i < n) (f : ℕ → K) :
    (if o + k * n ≤ o + (t * n + i) ∧ o + (t * n + i) < o + k * n + n then f (o + (t * n + i) - (o + k * n)) else 0) = if k = t then f i else 0 := by
  rw [← blk_if hi f]
  by_cases e : k * n ≤ t * n + i ∧ t * n + i < k * n + n
  · rw [if_pos e, if_pos (by omega), show o + (t * n + i) - (o + k * n) = t * n + i - k * n by omega]
  · rw [if_neg e, if_neg (by omega)]

theorem VARX_mul (d : Dims) : d.NN * d.NX = d.VARX := Nat.mul_comm _ _
theorem VARU_mul (d : Dims) : d.NN * d.NU = d.VARU := Nat.mul_comm _ _

/-! ### Additions -/

/-- Where two segments meet, first call. -/
theorem add_fresh (d : Dims) (h : ℕ → ℕ → K) {k : ℕ} (hk : k + 1 < d.NN) (hUX : d.NU ≤ d.NX) {A : Csc K} {M : ℕ → ℕ → K} (hs : HesStart d A.start)
    (hA : Holds A d.VAR d.VAR (nodePat d (k + 1) false) M) :
    ∃ A', runOps d.VAR (hesAdd d k h) A = some A' ∧ A'.start = A.start ∧
      Holds A' d.VAR d.VAR (nodePat d (k + 1) false) fun r c => M r c + scatter2 d k (addH d h) r c := by
  have hkN : k < d.NN := by omega
  obtain ⟨A', e, s, hA'⟩ := hA.addAll (hesAdd d k h) (fits_hesAdd hs hkN h)
  refine ⟨A', e, s, hA'.congr fun c hc r hr hp => ?_⟩
  congr 1
  show incOf (hesAdd d k h) c (rank (nodePat d (k + 1) false c) r) = _
  rcases entry_cases d (show k + 1 ≤ d.NN by omega) hp with ⟨t, ht, i, hi, j, hj, rfl, rfl, hρ⟩ | ⟨t, ht, i, hi, a, ha, rfl, rfl, hρ⟩ |
    ⟨t, ht, i, hi, a, ha, rfl, rfl, hρ⟩ | ⟨hf, _⟩
  · rw [hρ, hesAdd_col d h hkN (by omega) hj hi, scatter2_entry d hkN (by omega) hi (by unfold Dims.M; omega) (Or.inr hj)]
    unfold addH
    rw [if_neg (c := (d.NX ≤ i ∧ _) ∧ _) (by omega)]
  · have hx := xIdx_lt d (show t < d.NN by omega) hi
    rw [hρ, hesAdd_p d h hkN ha, if_neg (c := d.VARX + k * d.NU ≤ _ ∧ _) (by omega), add_zero, blk_if hi fun b => h b (d.NX + d.NU + a), ← nodeIdx_p d t a,
      scatter2_entry d hkN (by omega) (by unfold Dims.M; omega) (by unfold Dims.M; omega) (Or.inl (by omega))]
    unfold addH
    rw [if_neg (c := (d.NX ≤ i ∧ _) ∧ _) (by omega)]
  · have h1 : k * d.NX + d.NX = (k + 1) * d.NX := by rw [Nat.add_mul]; omega
    have h2 := blk_le hi ht
    have h3 : (k + 1) * d.NX + d.NX ≤ d.VARX := (idx_facts d hk).1
    have h4 : (k + 1) * d.NU = k * d.NU + d.NU := by rw [Nat.add_mul]; omega
    rw [hρ, hesAdd_p d h hkN ha, if_neg (by omega), if_neg (by omega), add_zero, ← nodeIdx_p d t a,
      scatter2_entry d hkN (by omega) (by unfold Dims.M; omega) (by unfold Dims.M; omega) (Or.inl (by omega))]
    unfold addH
    rw [if_pos (c := (d.NX ≤ d.NX + i ∧ _) ∧ _) (by omega)]; simp
  · exact absurd hf (by decide)

/-- Contributions to an entry of the complete matrix. -/
theorem inc_full (d : Dims) (l : List (Op K)) (h : ℕ → ℕ → K) {k : ℕ} (hk : k < d.NN)
    (hcol : ∀ t < d.NN, ∀ j < d.NX + d.NU, ∀ ρ < d.M, incOf l (nodeIdx d t j) ρ = if k = t then h ρ j else 0)
    (hp : ∀ a < d.NP, ∀ ρ < d.VAR, incOf l (d.VARX + d.VARU + a) ρ
      = (if k * d.NX ≤ ρ ∧ ρ < k * d.NX + d.NX then h (ρ - k * d.NX) (d.NX + d.NU + a) else 0)
        + ((if d.VARX + k * d.NU ≤ ρ ∧ ρ < d.VARX + k * d.NU + d.NU then h (d.NX + (ρ - (d.VARX + k * d.NU))) (d.NX + d.NU + a) else 0)
        + if d.VARX + d.VARU ≤ ρ ∧ ρ < d.VARX + d.VARU + d.NP then h (d.NX + d.NU + (ρ - (d.VARX + d.VARU))) (d.NX + d.NU + a) else 0))
    {r c : ℕ} (hrc : hesPat d c r = true) : incOf l c (rank (hesPat d c) r) = scatter2 d k h r c := by
  obtain ⟨f1, f2⟩ := idx_facts d hk
  have hV := VAR_eq d
  unfold hesPat at *
  rcases entry_cases d le_rfl hrc with ⟨t, ht, i, hi, j, hj, rfl, rfl, hρ⟩ | ⟨t, ht, i, hi, a, ha, rfl, rfl, hρ⟩ |
    ⟨t, ht, i, hi, a, ha, rfl, rfl, hρ⟩ | ⟨_, b, hb, a, ha, rfl, rfl, hρ⟩
  · rw [hρ, hcol t ht j hj i hi, scatter2_entry d hk ht hi (by unfold Dims.M; omega) (Or.inr hj)]
  · have hx := xIdx_lt d ht hi
    rw [hρ, hp a ha _ (by omega), if_neg (c := d.VARX + k * d.NU ≤ _ ∧ _) (by omega), if_neg (c := d.VARX + d.VARU ≤ _ ∧ _) (by omega), add_zero,
      add_zero, blk_if hi fun b => h b (d.NX + d.NU + a), ← nodeIdx_p d t a,
      scatter2_entry d hk ht (by unfold Dims.M; omega) (by unfold Dims.M; omega) (Or.inl (by omega))]
  · have hx := uIdx_lt d ht hi
    rw [VARX_mul] at hρ
    rw [hρ, hp a ha _ (by omega), if_neg (c := k * d.NX ≤ _ ∧ _) (by omega), if_neg (c := d.VARX + d.VARU ≤ _ ∧ _) (by omega), add_zero, zero_add,
      blk_if' hi fun b => h (d.NX + b) (d.NX + d.NU + a), ← nodeIdx_p d t a,
      scatter2_entry d hk ht (by unfold Dims.M; omega) (by unfold Dims.M; omega) (Or.inl (by omega))]
  · rw [VARX_mul, VARU_mul] at hρ
    rw [hρ, hp a ha _ (by omega), if_neg (c := k * d.NX ≤ _ ∧ _) (by omega), if_neg (c := d.VARX + k * d.NU ≤ _ ∧ _) (by omega), if_pos (by omega),
      zero_add, zero_add, Nat.add_sub_cancel_left, scatter2_par d hk ha hb]

/-- A node Hessian without its parameter block. -/
def noPP (d : Dims) (h : ℕ → ℕ → K) (i j : ℕ) : K := if d.NX + d.NU ≤ i ∧ d.NX + d.NU ≤ j then 0 else h i j

theorem hesAdd_full (d : Dims) (h : ℕ → ℕ → K) {k : ℕ} (hk : k < d.NN) {A : Csc K} {M : ℕ → ℕ → K} (hs : HesStart d A.start)
    (hA : Holds A d.VAR d.VAR (hesPat d) M) :
    ∃ A', runOps d.VAR (hesAdd d k h) A = some A' ∧ A'.start = A.start ∧
      Holds A' d.VAR d.VAR (hesPat d) fun r c => M r c + scatter2 d k (noPP d h) r c := by
  obtain ⟨A', e, s, hA'⟩ := hA.addAll (hesAdd d k h) (fits_hesAdd hs hk h)
  refine ⟨A', e, s, hA'.congr fun c hc r hr hp => ?_⟩
  congr 1
  refine inc_full d (hesAdd d k h) (noPP d h) hk (fun t ht j hj ρ hρ => ?_) (fun a ha ρ hρ => ?_) hp
  · rw [hesAdd_col d h hk ht hj hρ]; unfold noPP; rw [if_neg (c := d.NX + d.NU ≤ ρ ∧ _) (by omega)]
  · rw [hesAdd_p d h hk ha]
    unfold noPP
    rw [if_pos (c := d.NX + d.NU ≤ d.NX + d.NU + _ ∧ _) (by omega), ite_self, add_zero]
    congr 1
    · split_ifs <;> first | rfl | omega
    · split_ifs <;> first | rfl | omega

theorem mayerAdd_full (d : Dims) (h : ℕ → ℕ → K) {A : Csc K} {M : ℕ → ℕ → K} (hs : HesStart d A.start)
    (hA : Holds A d.VAR d.VAR (hesPat d) M) :
    ∃ A', runOps d.VAR (mayerAdd d h) A = some A' ∧ A'.start = A.start ∧
      Holds A' d.VAR d.VAR (hesPat d) fun r c => M r c + scatter2 d 0 h r c := by
  have h0 : 0 < d.NN := by unfold Dims.NN; omega
  obtain ⟨A', e, s, hA'⟩ := hA.addAll (mayerAdd d h) (fits_mayerAdd hs h)
  refine ⟨A', e, s, hA'.congr fun c hc r hr hp => ?_⟩
  congr 1
  refine inc_full d (mayerAdd d h) h h0 (fun t ht j hj ρ hρ => ?_) (fun a ha ρ hρ => ?_) hp
  · have := nodeIdx_xu_lt d ht hj
    rw [mayerAdd_inc, hesAdd_col d h h0 ht hj hρ, if_neg (c := (d.VARX + d.VARU ≤ nodeIdx d t j ∧ _) ∧ _) (by omega), add_zero]
  · rw [mayerAdd_inc, hesAdd_p d h h0 ha, ← add_assoc]
    congr 1
    rw [Nat.add_sub_cancel_left]
    have e3 : d.VARX + d.VARU ≤ d.VARX + d.VARU + a ∧ d.VARX + d.VARU + a < d.VARX + d.VARU + d.NP := by omega
    simp only [e3, true_and, and_self]

theorem hesCols_full (d : Dims) (h : ℕ → ℕ → K) {k : ℕ} (hk : k < d.NN) {A : Csc K} {M : ℕ → ℕ → K} (hs : HesStart d A.start)
    (hA : Holds A d.VAR d.VAR (hesPat d) M) :
    ∃ A', runOps d.VAR (hesCols d k h) A = some A' ∧ A'.start = A.start ∧
      Holds A' d.VAR d.VAR (hesPat d) fun r c => M r c + scatter2 d k h r c := by
  obtain ⟨A', e, s, hA'⟩ := hA.addAll (hesCols d k h) (fits_hesCols hs hk h)
  refine ⟨A', e, s, hA'.congr fun c hc r hr hp => ?_⟩
  congr 1
  exact inc_full d (hesCols d k h) h hk (fun t ht j hj ρ hρ => hesCols_col d h hk ht hj hρ) (fun a ha ρ hρ => hesCols_p d h hk ha) hp

/-! ### Insertions -/

/-- Index pairs of a block, by columns. -/
def grp (i0 ni j0 nj : ℕ) : List (ℕ × ℕ) := (List.range nj).flatMap fun j => (List.range ni).map fun r => (i0 + r, j0 + j)

theorem mem_grp {i0 ni j0 nj : ℕ} {e : ℕ × ℕ} : e ∈ grp i0 ni j0 nj ↔ (i0 ≤ e.1 ∧ e.1 < i0 + ni) ∧ j0 ≤ e.2 ∧ e.2 < j0 + nj := by
  unfold grp
  constructor
  · intro h
    obtain ⟨j, hj, h⟩ := List.mem_flatMap.1 h
    obtain ⟨r, hr, rfl⟩ := List.mem_map.1 h
    rw [List.mem_range] at hj hr
    exact ⟨⟨by simp, by simpa using hr⟩, by simp, by simpa using hj⟩
  · rintro ⟨h1, h2⟩
    obtain ⟨i, j⟩ := e
    dsimp only at h1 h2
    exact List.mem_flatMap.2 ⟨j - j0, List.mem_range.2 (by omega), List.mem_map.2 ⟨i - i0, List.mem_range.2 (by omega), by
      rw [Prod.mk.injEq]; omega⟩⟩

theorem nodup_grp (i0 ni j0 nj : ℕ) : (grp i0 ni j0 nj).Nodup := by
  unfold grp
  rw [List.nodup_flatMap]
  refine ⟨fun j _ => (List.nodup_range).map fun a b h => by simpa using h, ?_⟩
  refine List.Pairwise.imp ?_ List.nodup_range
  intro j j' hne
  simp only [Function.onFun]
  rw [List.disjoint_left]
  intro e h1 h2
  obtain ⟨r, _, rfl⟩ := List.mem_map.1 h1
  obtain ⟨r', _, h⟩ := List.mem_map.1 h2
  rw [Prod.mk.injEq] at h
  omega

theorem map_grp {β : Type*} (i0 ni j0 nj : ℕ) (F G : ℕ → ℕ → β) (h : ∀ r < ni, ∀ j < nj, F (i0 + r) (j0 + j) = G r j) :
    (grp i0 ni j0 nj).map (fun e => F e.1 e.2) = (List.range nj).flatMap fun j => (List.range ni).map fun r => G r j := by
  unfold grp
  rw [List.map_flatMap]
  refine List.flatMap_congr fun j hj => ?_
  rw [List.map_map]
  refine List.map_congr_left fun r hr => ?_
  exact h r (List.mem_range.1 hr) j (List.mem_range.1 hj)

/-- The local index pairs in the order of the insertions. -/
def idxList (d : Dims) : List (ℕ × ℕ) :=
  grp 0 d.NX 0 d.NX ++ grp 0 d.NX d.NX d.NU ++ grp 0 d.NX (d.NX + d.NU) d.NP ++ grp d.NX d.NU d.NX d.NU ++ grp d.NX d.NU 0 d.NX ++
  grp d.NX d.NU (d.NX + d.NU) d.NP ++ grp (d.NX + d.NU) d.NP 0 d.NX ++ grp (d.NX + d.NU) d.NP d.NX d.NU

theorem mem_idxList (d : Dims) {e : ℕ × ℕ} : e ∈ idxList d ↔ e.1 < d.M ∧ e.2 < d.M ∧ (e.1 < d.NX + d.NU ∨ e.2 < d.NX + d.NU) := by
  unfold idxList Dims.M
  simp only [List.mem_append, mem_grp]
  omega

theorem nodup_idxList (d : Dims) : (idxList d).Nodup := by
  unfold idxList
  simp only [List.nodup_append', nodup_grp, true_and, List.disjoint_left, List.mem_append, mem_grp]
  refine ⟨⟨⟨⟨⟨⟨?_, ?_⟩, ?_⟩, ?_⟩, ?_⟩, ?_⟩, ?_⟩ <;> (intro e h1 h2; omega)

/-- What the insertions for a node write where. -/
def insTriples (d : Dims) (k : ℕ) (h : ℕ → ℕ → K) : List (ℕ × ℕ × K) :=
  (idxList d).map fun e => (nodeIdx d k e.1, nodeIdx d k e.2, insH d h e.1 e.2)

theorem hesIns_eq (d : Dims) (k : ℕ) (h : ℕ → ℕ → K) : hesIns d k h = (insTriples d k h).map fun e => Op.ins e.1 e.2.1 e.2.2 := by
  unfold insTriples
  rw [List.map_map]
  show hesIns d k h = (idxList d).map fun e => (fun i j => Op.ins (nodeIdx d k i) (nodeIdx d k j) (insH d h i j)) e.1 e.2
  unfold idxList hesIns
  dsimp only
  simp only [List.map_append]
  have N1 : ∀ r < d.NX, nodeIdx d k (0 + r) = k * d.NX + r := fun r hr => by rw [Nat.zero_add, nodeIdx_x d k hr]
  have N2 : ∀ r < d.NU, nodeIdx d k (d.NX + r) = k * d.NU + d.VARX + r := fun r hr => nodeIdx_u d k hr
  have N3 : ∀ r, nodeIdx d k (d.NX + d.NU + r) = d.VARX + d.VARU + r := fun r => nodeIdx_p d k r
  congr 1; congr 1; congr 1; congr 1; congr 1; congr 1; congr 1
  · refine (map_grp 0 d.NX 0 d.NX (fun i j => Op.ins (nodeIdx d k i) (nodeIdx d k j) (insH d h i j)) (fun r j => Op.ins (k * d.NX + r) (k * d.NX + j) (h r j)) ?_).symm
    intro r hr j hj
    rw [N1 r hr, N1 j hj]; unfold insH; rw [if_neg (by omega), if_neg (by omega), Nat.zero_add, Nat.zero_add]
  · refine (map_grp 0 d.NX d.NX d.NU (fun i j => Op.ins (nodeIdx d k i) (nodeIdx d k j) (insH d h i j)) (fun r j => Op.ins (k * d.NX + r) (k * d.NU + d.VARX + j) (h r (j + d.NX))) ?_).symm
    intro r hr j hj
    rw [N1 r hr, N2 j hj]; unfold insH; rw [if_neg (by omega), if_neg (by omega), Nat.zero_add, Nat.add_comm d.NX]
  · refine (map_grp 0 d.NX (d.NX + d.NU) d.NP (fun i j => Op.ins (nodeIdx d k i) (nodeIdx d k j) (insH d h i j)) (fun r j => Op.ins (k * d.NX + r) (d.VARX + d.VARU + j) (h r (j + d.NX + d.NP))) ?_).symm
    intro r hr j hj
    rw [N1 r hr, N3 j]; unfold insH; rw [if_pos (by omega), Nat.zero_add, show d.NX + d.NU + j - d.NU + d.NP = j + d.NX + d.NP by omega]
  · refine (map_grp d.NX d.NU d.NX d.NU (fun i j => Op.ins (nodeIdx d k i) (nodeIdx d k j) (insH d h i j)) (fun r j => Op.ins (k * d.NU + d.VARX + r) (k * d.NU + d.VARX + j) (h (r + d.NX) (j + d.NX))) ?_).symm
    intro r hr j hj
    rw [N2 r hr, N2 j hj]; unfold insH; rw [if_neg (by omega), if_neg (by omega), Nat.add_comm d.NX, Nat.add_comm d.NX]
  · refine (map_grp d.NX d.NU 0 d.NX (fun i j => Op.ins (nodeIdx d k i) (nodeIdx d k j) (insH d h i j)) (fun r j => Op.ins (k * d.NU + d.VARX + r) (k * d.NX + j) (h (r + d.NX) j)) ?_).symm
    intro r hr j hj
    rw [N2 r hr, N1 j hj]; unfold insH; rw [if_neg (by omega), if_neg (by omega), Nat.add_comm d.NX, Nat.zero_add]
  · refine (map_grp d.NX d.NU (d.NX + d.NU) d.NP (fun i j => Op.ins (nodeIdx d k i) (nodeIdx d k j) (insH d h i j)) (fun r j => Op.ins (k * d.NU + d.VARX + r) (d.VARX + d.VARU + j) (h (r + d.NX) (j + d.NX + d.NU))) ?_).symm
    intro r hr j hj
    rw [N2 r hr, N3 j]; unfold insH; rw [if_neg (by omega), if_neg (by omega), Nat.add_comm d.NX r, show d.NX + d.NU + j = j + d.NX + d.NU by omega]
  · refine (map_grp (d.NX + d.NU) d.NP 0 d.NX (fun i j => Op.ins (nodeIdx d k i) (nodeIdx d k j) (insH d h i j)) (fun r j => Op.ins (d.VARX + d.VARU + r) (k * d.NX + j) (h (r + d.NX + d.NU) j)) ?_).symm
    intro r hr j hj
    rw [N3 r, N1 j hj]; unfold insH; rw [if_neg (by omega), if_neg (by omega), Nat.zero_add, show d.NX + d.NU + r = r + d.NX + d.NU by omega]
  · refine (map_grp (d.NX + d.NU) d.NP d.NX d.NU (fun i j => Op.ins (nodeIdx d k i) (nodeIdx d k j) (insH d h i j)) (fun r j => Op.ins (d.VARX + d.VARU + r) (k * d.NU + d.VARX + j) (h (r + d.NX + d.NU) (j + d.NU))) ?_).symm
    intro r hr j hj
    rw [N3 r, N2 j hj]; unfold insH
    rw [if_neg (by omega), if_pos (by omega), show d.NX + d.NU + r = r + d.NX + d.NU by omega, show d.NX + j - d.NX + d.NU = j + d.NU by omega]

/-- Entries of a node that are not yet in the pattern of the nodes before it, and contributions of other nodes. -/
theorem scatter2_early (d : Dims) {T k c r : ℕ} (hk : k < d.NN) (hT : T ≤ k) (h : nodePat d T false c r = true) (g : ℕ → ℕ → K) :
    scatter2 d k g r c = 0 := by
  rcases (nodePat_iff d).1 h with ⟨t, ht, i, hi, j, hj, hij, rfl, rfl⟩ | ⟨hf, _⟩
  · rw [scatter2_entry d hk (by omega) hi hj hij, if_neg (by omega)]
  · exact absurd hf (by decide)

theorem nodePat_new (d : Dims) {k i j : ℕ} (hk : k < d.NN) (hi : i < d.M) (hj : j < d.M) (hij : i < d.NX + d.NU ∨ j < d.NX + d.NU) :
    nodePat d k false (nodeIdx d k j) (nodeIdx d k i) = false := by
  rw [Bool.eq_false_iff]
  intro h
  have := scatter2_early (K := ℚ) d hk le_rfl h fun _ _ => 1
  rw [scatter2_entry d hk hk hi hj hij, if_pos rfl] at this
  exact absurd this (by norm_num)

/-- The insertions for a new node. -/
theorem ins_fresh (d : Dims) (h : ℕ → ℕ → K) {k : ℕ} (hk : k < d.NN) {A : Csc K} {M : ℕ → ℕ → K} (hs : HesStart d A.start)
    (hA : Holds A d.VAR d.VAR (nodePat d k false) M)
    (hM : ∀ i < d.M, ∀ j < d.M, (i < d.NX + d.NU ∨ j < d.NX + d.NU) → M (nodeIdx d k i) (nodeIdx d k j) = 0) :
    ∃ A', runOps d.VAR (hesIns d k h) A = some A' ∧ A'.start = A.start ∧
      Holds A' d.VAR d.VAR (nodePat d (k + 1) false) fun r c => M r c + scatter2 d k (insH d h) r c := by
  rw [hesIns_eq]
  refine hA.insertAll (insTriples d k h) ?_ ?_ (nodePat d (k + 1) false) ?_ ?_ _ ?_ ?_
  · intro e he
    obtain ⟨p, hp, rfl⟩ := List.mem_map.1 he
    obtain ⟨hi, hj, hij⟩ := (mem_idxList d).1 hp
    exact ⟨nodeIdx_lt d hk hi, nodeIdx_lt d hk hj, nodePat_new d hk hi hj hij⟩
  · unfold insTriples
    rw [List.pairwise_map]
    refine List.Pairwise.imp_of_mem ?_ (nodup_idxList d)
    rintro p q hp hq hne ⟨h1, h2⟩
    obtain ⟨hi, hj, _⟩ := (mem_idxList d).1 hp
    obtain ⟨hi', hj', _⟩ := (mem_idxList d).1 hq
    exact hne (Prod.ext (nodeIdx_inj d hk hi hi' h1) (nodeIdx_inj d hk hj hj' h2))
  · intro c r
    constructor
    · intro hQ
      rcases (nodePat_iff d).1 hQ with ⟨t, ht, i, hi, j, hj, hij, rfl, rfl⟩ | ⟨hf, _⟩
      · rcases Nat.lt_or_ge t k with h1 | h1
        · exact Or.inl ((nodePat_iff d).2 (Or.inl ⟨t, h1, i, hi, j, hj, hij, rfl, rfl⟩))
        · have : t = k := by omega
          subst this
          exact Or.inr ⟨_, List.mem_map.2 ⟨(i, j), (mem_idxList d).2 ⟨hi, hj, hij⟩, rfl⟩⟩
      · exact absurd hf (by decide)
    · rintro (hQ | ⟨v, hv⟩)
      · rcases (nodePat_iff d).1 hQ with ⟨t, ht, hh⟩ | ⟨hf, _⟩
        · exact (nodePat_iff d).2 (Or.inl ⟨t, by omega, hh⟩)
        · exact absurd hf (by decide)
      · obtain ⟨p, hp, e⟩ := List.mem_map.1 hv
        obtain ⟨hi, hj, hij⟩ := (mem_idxList d).1 hp
        simp only [Prod.mk.injEq] at e
        exact (nodePat_iff d).2 (Or.inl ⟨k, by omega, p.1, hi, p.2, hj, hij, e.1.symm, e.2.1.symm⟩)
  · intro c hc
    rw [hs.step hc]
    have := rank_nodePat_le d (show k + 1 ≤ d.NN by omega) false hc
    omega
  · intro c r hp
    rw [scatter2_early d hk le_rfl hp, add_zero]
  · intro e he
    obtain ⟨p, hp, rfl⟩ := List.mem_map.1 he
    obtain ⟨hi, hj, hij⟩ := (mem_idxList d).1 hp
    dsimp only
    rw [hM _ hi _ hj hij, scatter2_entry d hk hk hi hj hij, if_pos rfl, zero_add]

/-- The parameter block, first call. -/
theorem ppIns_fresh (d : Dims) (g : ℕ → ℕ → K) {A : Csc K} {M : ℕ → ℕ → K} (hs : HesStart d A.start)
    (hA : Holds A d.VAR d.VAR (nodePat d d.NN false) M) (M' : ℕ → ℕ → K)
    (hM : ∀ c r, nodePat d d.NN false c r = true → M' r c = M r c)
    (hg : ∀ b < d.NP, ∀ a < d.NP, M' (d.VARX + d.VARU + b) (d.VARX + d.VARU + a) = g b a) :
    ∃ A', runOps d.VAR (ppIns d g) A = some A' ∧ A'.start = A.start ∧ Holds A' d.VAR d.VAR (hesPat d) M' := by
  set l : List (ℕ × ℕ × K) := (grp 0 d.NP 0 d.NP).map fun e => (d.VARX + d.VARU + e.1, d.VARX + d.VARU + e.2, g e.1 e.2) with hl
  have e0 : ppIns d g = l.map fun e => Op.ins e.1 e.2.1 e.2.2 := by
    rw [hl, List.map_map]
    show ppIns d g = (grp 0 d.NP 0 d.NP).map fun e => (fun i j => Op.ins (d.VARX + d.VARU + i) (d.VARX + d.VARU + j) (g i j)) e.1 e.2
    exact (map_grp 0 d.NP 0 d.NP (fun i j => Op.ins (d.VARX + d.VARU + i) (d.VARX + d.VARU + j) (g i j))
      (fun r j => Op.ins (d.VARX + d.VARU + r) (d.VARX + d.VARU + j) (g r j)) fun r _ j _ => by
        rw [Nat.zero_add, Nat.zero_add]).symm
  have hno : ∀ b a, nodePat d d.NN false (d.VARX + d.VARU + a) (d.VARX + d.VARU + b) = false := by
    intro b a
    rw [Bool.eq_false_iff]
    intro h
    rcases (nodePat_iff d).1 h with ⟨t, ht, i, hi, j, hj, hij, e1, e2⟩ | ⟨hf, _⟩
    · rcases hij with h' | h'
      · have := nodeIdx_xu_lt d ht h'; omega
      · have := nodeIdx_xu_lt d ht h'; omega
    · exact absurd hf (by decide)
  rw [e0]
  refine hA.insertAll l ?_ ?_ (hesPat d) ?_ ?_ M' hM ?_
  · intro e he
    obtain ⟨p, hp, rfl⟩ := List.mem_map.1 he
    have := mem_grp.1 hp
    exact ⟨by rw [VAR_eq]; dsimp only; omega, by rw [VAR_eq]; dsimp only; omega, hno _ _⟩
  · rw [hl, List.pairwise_map]
    refine List.Pairwise.imp_of_mem ?_ (nodup_grp 0 d.NP 0 d.NP)
    rintro p q hp hq hne ⟨h1, h2⟩
    dsimp only at h1 h2
    exact hne (Prod.ext (by omega) (by omega))
  · intro c r
    constructor
    · intro hQ
      rcases (nodePat_iff d).1 hQ with h1 | ⟨_, h1, h2⟩
      · exact Or.inl ((nodePat_iff d).2 (Or.inl h1))
      · rw [VAR_eq] at h1 h2
        refine Or.inr ⟨g (r - (d.VARX + d.VARU)) (c - (d.VARX + d.VARU)), List.mem_map.2 ⟨(r - (d.VARX + d.VARU), c - (d.VARX + d.VARU)), mem_grp.2 ⟨by dsimp only; omega, by dsimp only; omega⟩, ?_⟩⟩
        simp only [Prod.mk.injEq]
        exact ⟨by omega, by omega, trivial⟩
    · rintro (hQ | ⟨v, hv⟩)
      · exact hesPat_sub d le_rfl hQ
      · obtain ⟨p, hp, e⟩ := List.mem_map.1 hv
        have := mem_grp.1 hp
        simp only [Prod.mk.injEq] at e
        exact (nodePat_iff d).2 (Or.inr ⟨rfl, by rw [VAR_eq]; omega, by rw [VAR_eq]; omega⟩)
  · intro c hc
    rw [hs.step hc, rank_hesPat d hc]
  · intro e he
    obtain ⟨p, hp, rfl⟩ := List.mem_map.1 he
    have := mem_grp.1 hp
    exact hg _ (by omega) _ (by omega)

/-! ### Copies -/

open Classical in
/-- The matrix after the copies for node `k`. -/
noncomputable def putM (d : Dims) (k : ℕ) (h M : ℕ → ℕ → K) (r c : ℕ) : K :=
  if ∃ i < d.M, ∃ j < d.M, (i < d.NX + d.NU ∨ j < d.NX + d.NU) ∧ r = nodeIdx d k i ∧ c = nodeIdx d k j then scatter2 d k h r c else M r c

theorem putM_at (d : Dims) {k i j : ℕ} (h M : ℕ → ℕ → K) (hk : k < d.NN) (hi : i < d.M) (hj : j < d.M) (hij : i < d.NX + d.NU ∨ j < d.NX + d.NU) :
    putM d k h M (nodeIdx d k i) (nodeIdx d k j) = h i j := by
  unfold putM
  rw [if_pos ⟨i, hi, j, hj, hij, rfl, rfl⟩, scatter2_entry d hk hk hi hj hij, if_pos rfl]

theorem put_full (d : Dims) (h : ℕ → ℕ → K) {k : ℕ} (hk : k < d.NN) {A : Csc K} {M : ℕ → ℕ → K} (hs : HesStart d A.start)
    (hA : Holds A d.VAR d.VAR (hesPat d) M) :
    ∃ A', runOps d.VAR (hesPut d k h) A = some A' ∧ A'.start = A.start ∧ Holds A' d.VAR d.VAR (hesPat d) (putM d k h M) := by
  obtain ⟨f1, f2⟩ := idx_facts d hk
  have hV := VAR_eq d
  have hmono : ∀ c < d.VAR, A.start (c + 1) ≤ A.start d.VAR := fun c hc => hA.start_mono (by omega) le_rfl
  have hcolp : ∀ j < d.NX + d.NU, hesPat d (nodeIdx d k j) = hitB d k := fun j hj => funext fun r => nodePat_col d le_rfl hk hj true r
  have hM : d.M = d.NX + d.NU + d.NP := rfl
  obtain ⟨A', M'', e, s, hA', hv⟩ := hA.putAll (putM d k h M) (hesPut d k h) (by
    intro o ho
    unfold hesPut at ho
    rcases List.mem_append.1 ho with ho | ho
    · rcases List.mem_append.1 ho with ho | ho
      · obtain ⟨j, hj, rfl⟩ := List.mem_map.1 ho
        rw [List.mem_range] at hj
        have hx := hs.xu (c := k * d.NX + j) (by omega)
        have := hmono (k * d.NX + j) (by omega)
        refine ⟨_, _, _, _, rfl, by omega, fun q hq => ⟨nodeIdx d k j, nodeIdx d k q, nodeIdx_lt d hk (by omega), ?_, ?_, ?_⟩⟩
        · rw [hcolp j (by omega), hitB_iff d hk (nodeIdx_lt d hk hq)]; exact ⟨q, hq, rfl⟩
        · rw [hcolp j (by omega), rank_hit d hk hq, nodeIdx_x d k hj]; omega
        · rw [putM_at d h M hk hq (by omega) (Or.inr (by omega))]
      · obtain ⟨j, hj, rfl⟩ := List.mem_map.1 ho
        rw [List.mem_range] at hj
        have hx := hs.xu (c := k * d.NU + d.VARX + j) (by omega)
        have := hmono (k * d.NU + d.VARX + j) (by omega)
        refine ⟨_, _, _, _, rfl, by omega, fun q hq => ⟨nodeIdx d k (d.NX + j), nodeIdx d k q, nodeIdx_lt d hk (by omega), ?_, ?_, ?_⟩⟩
        · rw [hcolp _ (by omega), hitB_iff d hk (nodeIdx_lt d hk hq)]; exact ⟨q, hq, rfl⟩
        · rw [hcolp _ (by omega), rank_hit d hk hq, nodeIdx_u d k hj]; omega
        · rw [putM_at d h M hk hq (by omega) (Or.inr (by omega))]
    · obtain ⟨j, hj, ho⟩ := List.mem_flatMap.1 ho
      rw [List.mem_range] at hj
      have hx := hs.p (c := d.VARX + d.VARU + j) (by omega) (by omega)
      have := hmono (d.VARX + d.VARU + j) (by omega)
      obtain ⟨r1, r2, _⟩ := rank_par d le_rfl hj true
      rw [VARX_mul, VARU_mul] at r2
      rw [VARX_mul] at r1
      simp only [List.mem_cons, List.not_mem_nil, or_false] at ho
      rcases ho with rfl | rfl
      · refine ⟨_, _, _, _, rfl, by omega, fun q hq => ⟨d.VARX + d.VARU + j, nodeIdx d k q, by omega, ?_, ?_, ?_⟩⟩
        · rw [nodeIdx_x d k hq]; unfold hesPat; rw [nodePat_par d le_rfl hj, VARX_mul]; omega
        · rw [nodeIdx_x d k hq]; unfold hesPat; rw [r1 _ (by omega)]; omega
        · rw [← nodeIdx_p d k j, putM_at d h M hk (by omega) (by omega) (Or.inl (by omega))]
      · refine ⟨_, _, _, _, rfl, by omega, fun q hq => ⟨d.VARX + d.VARU + j, nodeIdx d k (d.NX + q), by omega, ?_, ?_, ?_⟩⟩
        · rw [nodeIdx_u d k hq]; unfold hesPat; rw [nodePat_par d le_rfl hj, VARU_mul]; omega
        · rw [nodeIdx_u d k hq]; unfold hesPat; rw [r2 _ (by omega) (by omega)]; omega
        · rw [← nodeIdx_p d k j, putM_at d h M hk (by omega) (by omega) (Or.inl (by omega))])
  refine ⟨A', e, s, hA'.congr fun c hc r hr hp => ?_⟩
  rcases hv c hc r hp with hv | ⟨hv, hn⟩
  · exact hv
  · unfold putM
    by_cases hx : ∃ i < d.M, ∃ j < d.M, (i < d.NX + d.NU ∨ j < d.NX + d.NU) ∧ r = nodeIdx d k i ∧ c = nodeIdx d k j
    · exfalso
      obtain ⟨i, hi, j, hj, hij, rfl, rfl⟩ := hx
      by_cases hj' : j < d.NX + d.NU
      · have hpos : pos A (hesPat d) (nodeIdx d k j) (nodeIdx d k i) = A.start (nodeIdx d k j) + i := by
          unfold pos; rw [hcolp j hj', rank_hit d hk hi]
        by_cases hjx : j < d.NX
        · refine hn _ (List.mem_append_left _ (List.mem_append_left _ (List.mem_map.2 ⟨j, List.mem_range.2 hjx, rfl⟩))) ⟨_, _, _, _, rfl, ?_, ?_⟩
          · rw [hpos, nodeIdx_x d k hjx]; omega
          · rw [hpos, nodeIdx_x d k hjx]; omega
        · obtain ⟨a, rfl⟩ := Nat.exists_eq_add_of_le (show d.NX ≤ j by omega)
          refine hn _ (List.mem_append_left _ (List.mem_append_right _ (List.mem_map.2 ⟨a, List.mem_range.2 (by omega), rfl⟩))) ⟨_, _, _, _, rfl, ?_, ?_⟩
          · rw [hpos, nodeIdx_u d k (by omega)]; omega
          · rw [hpos, nodeIdx_u d k (by omega)]; omega
      · have hi' : i < d.NX + d.NU := hij.resolve_right hj'
        obtain ⟨a, rfl⟩ := Nat.exists_eq_add_of_le (show d.NX + d.NU ≤ j by omega)
        have ha : a < d.NP := by omega
        obtain ⟨r1, r2, _⟩ := rank_par d le_rfl ha true
        rw [VARX_mul, VARU_mul] at r2
        rw [VARX_mul] at r1
        by_cases hix : i < d.NX
        · have hpos : pos A (hesPat d) (nodeIdx d k (d.NX + d.NU + a)) (nodeIdx d k i) = A.start (d.VARX + d.VARU + a) + (k * d.NX + i) := by
            unfold pos; rw [nodeIdx_p, nodeIdx_x d k hix]; unfold hesPat; rw [r1 _ (by omega)]
          refine hn _ (List.mem_append_right _ (List.mem_flatMap.2 ⟨a, List.mem_range.2 ha, List.mem_cons_self⟩)) ⟨_, _, _, _, rfl, ?_, ?_⟩
          · rw [hpos]; omega
          · rw [hpos]; omega
        · obtain ⟨b, rfl⟩ := Nat.exists_eq_add_of_le (show d.NX ≤ i by omega)
          have hpos : pos A (hesPat d) (nodeIdx d k (d.NX + d.NU + a)) (nodeIdx d k (d.NX + b))
              = A.start (d.VARX + d.VARU + a) + (d.VARX + k * d.NU + b) := by
            unfold pos; rw [nodeIdx_p, nodeIdx_u d k (by omega)]; unfold hesPat; rw [r2 _ (by omega) (by omega)]; omega
          refine hn _ (List.mem_append_right _ (List.mem_flatMap.2 ⟨a, List.mem_range.2 ha, List.mem_cons_of_mem _ List.mem_cons_self⟩))
            ⟨_, _, _, _, rfl, ?_, ?_⟩
          · rw [hpos]; omega
          · rw [hpos]; omega
    · rw [if_neg hx]; exact hv

theorem ppPut_full (d : Dims) (g : ℕ → ℕ → K) {A : Csc K} {M : ℕ → ℕ → K} (hs : HesStart d A.start)
    (hA : Holds A d.VAR d.VAR (hesPat d) M) (M' : ℕ → ℕ → K)
    (hM : ∀ c r, nodePat d d.NN false c r = true → M' r c = M r c)
    (hg : ∀ b < d.NP, ∀ a < d.NP, M' (d.VARX + d.VARU + b) (d.VARX + d.VARU + a) = g b a) :
    ∃ A', runOps d.VAR (ppPut d g) A = some A' ∧ A'.start = A.start ∧ Holds A' d.VAR d.VAR (hesPat d) M' := by
  have hV := VAR_eq d
  have hmono : ∀ c < d.VAR, A.start (c + 1) ≤ A.start d.VAR := fun c hc => hA.start_mono (by omega) le_rfl
  obtain ⟨A', M'', e, s, hA', hv⟩ := hA.putAll M' (ppPut d g) (by
    intro o ho
    obtain ⟨j, hj, rfl⟩ := List.mem_map.1 ho
    rw [List.mem_range] at hj
    have hx := hs.p (c := d.VARX + d.VARU + j) (by omega) (by omega)
    have := hmono (d.VARX + d.VARU + j) (by omega)
    obtain ⟨_, _, r3⟩ := rank_par d le_rfl hj true
    simp only [VARX_mul, VARU_mul, if_true] at r3
    refine ⟨_, _, _, _, rfl, by omega, fun q hq => ⟨d.VARX + d.VARU + j, d.VARX + d.VARU + q, by omega, ?_, ?_, (hg q hq j hj).symm⟩⟩
    · unfold hesPat; rw [nodePat_par d le_rfl hj]; exact Or.inr (Or.inr ⟨rfl, by omega, by omega⟩)
    · unfold hesPat; rw [r3 _ (by omega) (by omega)]; omega)
  refine ⟨A', e, s, hA'.congr fun c hc r hr hp => ?_⟩
  rcases hv c hc r hp with hv | ⟨hv, hn⟩
  · exact hv
  · rcases (nodePat_iff d).1 hp with h1 | ⟨_, h1, h2⟩
    · rw [hv, hM c r ((nodePat_iff d).2 (Or.inl h1))]
    · exfalso
      obtain ⟨a, rfl⟩ := Nat.exists_eq_add_of_le h2.1
      obtain ⟨b, rfl⟩ := Nat.exists_eq_add_of_le h1.1
      have ha : a < d.NP := by omega
      obtain ⟨_, _, r3⟩ := rank_par d le_rfl ha true
      simp only [VARX_mul, VARU_mul, if_true] at r3
      have hpos : pos A (hesPat d) (d.VARX + d.VARU + a) (d.VARX + d.VARU + b) = A.start (d.VARX + d.VARU + a) + (d.VARX + d.VARU + b) := by
        unfold pos hesPat; rw [r3 _ (by omega) (by omega)]; omega
      refine hn _ (List.mem_map.2 ⟨a, List.mem_range.2 ha, rfl⟩) ⟨_, _, _, _, rfl, ?_, ?_⟩
      · rw [hpos]; omega
      · rw [hpos]; omega

end PolyMPC.Ocp
