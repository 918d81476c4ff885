import Verif.Lemmas.OcpSparseHessLoop

/-! # Sparse second derivatives: products with vectors and the quasi-Newton update -/

namespace PolyMPC.Ocp
open AD Sparse Sparse.Csc

set_option linter.unusedSectionVars false
set_option linter.unusedVariables false

variable {K : Type} [Field K] [DecidableEq K]

theorem canon_sum (m : ℕ) (p : ℕ → Bool) (f : ℕ → K) (g : ℕ → K → K) :
    ((canon m p f).map fun e => g e.1 e.2).sum = ∑ r ∈ Finset.range m, if p r then g r (f r) else 0 := by
  unfold canon
  rw [List.map_map]
  induction m with
  | zero => rfl
  | succ m ih =>
    rw [List.range_succ, List.filter_append, List.map_append, List.sum_append, ih, Finset.sum_range_succ]
    congr 1
    by_cases h : p m = true
    · rw [if_pos h, List.filter_cons_of_pos h]; simp
    · rw [if_neg h, List.filter_cons_of_neg h]; simp

/-- Product with the transposed matrix. -/
theorem mulT_eq {J : Csc K} {n m : ℕ} {P : ℕ → ℕ → Bool} {M : ℕ → ℕ → K} (h : Holds J n m P M) (lam : ℕ → K) {c : ℕ} (hc : c < n) :
    mulT J lam c = ∑ r ∈ Finset.range m, J.coeff r c * lam r := by
  unfold mulT
  rw [h.col_eq hc, canon_sum m (P c) (fun r => M r c) fun r v => v * lam r]
  refine Finset.sum_congr rfl fun r _ => ?_
  rw [h.coeff_eq hc]
  by_cases hp : P c r = true
  · rw [if_pos hp, if_pos hp]
  · rw [if_neg hp, if_neg hp, zero_mul]

/-- Product with the matrix. -/
theorem mulVec_eq {d : Dims} {H : Csc K} {m : ℕ} {P : ℕ → ℕ → Bool} {M : ℕ → ℕ → K} (h : Holds H d.VAR m P M) (s : ℕ → K) (r : ℕ) :
    mulVec d H s r = ∑ c ∈ Finset.range d.VAR, H.coeff r c * s c := by
  unfold mulVec
  refine Finset.sum_congr rfl fun c hc => ?_
  rw [Finset.mem_range] at hc
  rw [h.col_eq hc, canon_sum m (P c) (fun r => M r c) fun r' v => if r' = r then v * s c else 0, h.coeff_eq hc]
  by_cases hp : P c r = true
  · rw [if_pos hp, Finset.sum_eq_single r]
    · rw [if_pos hp, if_pos rfl]
    · intro b _ hb
      rw [if_neg (c := b = r) hb]; split_ifs <;> rfl
    · intro hn
      exact absurd (Finset.mem_range.2 (h.rows c hc r hp)) hn
  · rw [if_neg hp, zero_mul]
    refine Finset.sum_eq_zero fun b _ => ?_
    by_cases hb : b = r
    · subst hb; rw [if_neg hp]
    · rw [if_neg (c := b = r) hb]; split_ifs <;> rfl

/-! ### The accesses of the update -/

/-- What the accesses for a node add. -/
def nodePart (d : Dims) (k : ℕ) (B : ℕ → ℕ → K) (i j : ℕ) : K :=
  if i < d.NX + d.NU ∧ j < d.NX + d.NU then B (nodeIdx d k i) (nodeIdx d k j) else 0

theorem bfgsNode_col (d : Dims) (B : ℕ → ℕ → K) (hB : ∀ i j, B i j = B j i) {k t j ρ : ℕ} (hk : k < d.NN) (ht : t < d.NN) (hj : j < d.NX + d.NU)
    (hρ : ρ < d.M) : incOf (bfgsNode d k B) (nodeIdx d t j) ρ = if k = t then nodePart d k B ρ j else 0 := by
  obtain ⟨f1, f2⟩ := idx_facts d hk
  unfold bfgsNode nodePart
  simp only [incOf_append, incOf_group2]
  by_cases h1 : j < d.NX
  · have hx := xIdx_lt d ht h1
    have hb := blk t k h1
    rw [nodeIdx_x d t h1, if_neg (c := (k * d.NU + d.VARX ≤ _ ∧ _) ∧ 0 ≤ ρ ∧ _) (by omega),
      if_neg (c := (k * d.NU + d.VARX ≤ _ ∧ _) ∧ d.NX ≤ ρ ∧ _) (by omega), add_zero, add_zero]
    by_cases e : k = t
    · subst e
      rw [if_pos (c := k = k) rfl, show k * d.NX + j - k * d.NX = j by omega, nodeIdx_x d k h1]
      rcases Nat.lt_or_ge ρ d.NX with h2 | h2
      · rw [if_pos (by omega), if_neg (by omega), if_pos (by omega), add_zero, nodeIdx_x d k h2, Nat.sub_zero]
      · obtain ⟨q, rfl⟩ := Nat.exists_eq_add_of_le h2
        rcases Nat.lt_or_ge q d.NU with h3 | h3
        · rw [if_neg (by omega), if_pos (by omega), if_pos (by omega), zero_add, nodeIdx_u d k h3, Nat.add_sub_cancel_left]
        · rw [if_neg (by omega), if_neg (by omega), if_neg (by omega), add_zero]
    · have hb' : ¬ (k * d.NX ≤ t * d.NX + j ∧ t * d.NX + j < k * d.NX + d.NX) := fun hh => e (hb.1 hh)
      rw [if_neg e, if_neg (fun hh => hb' hh.1), if_neg (fun hh => hb' hh.1), add_zero]
  · obtain ⟨a, rfl⟩ := Nat.exists_eq_add_of_le (show d.NX ≤ j by omega)
    have ha : a < d.NU := by omega
    have hx := uIdx_lt d ht ha
    have hb := blk t k ha
    rw [nodeIdx_u d t ha, if_neg (c := (k * d.NX ≤ _ ∧ _) ∧ 0 ≤ ρ ∧ _) (by omega), if_neg (c := (k * d.NX ≤ _ ∧ _) ∧ d.NX ≤ ρ ∧ _) (by omega), add_zero,
      zero_add]
    by_cases e : k = t
    · subst e
      rw [if_pos (c := k = k) rfl, show k * d.NU + d.VARX + a - (k * d.NU + d.VARX) = a by omega, nodeIdx_u d k ha]
      rcases Nat.lt_or_ge ρ d.NX with h2 | h2
      · rw [if_pos (by omega), if_neg (by omega), if_pos (by omega), add_zero, nodeIdx_x d k h2, Nat.sub_zero, hB]
      · obtain ⟨q, rfl⟩ := Nat.exists_eq_add_of_le h2
        rcases Nat.lt_or_ge q d.NU with h3 | h3
        · rw [if_neg (by omega), if_pos (by omega), if_pos (by omega), zero_add, nodeIdx_u d k h3, Nat.add_sub_cancel_left]
        · rw [if_neg (by omega), if_neg (by omega), if_neg (by omega), add_zero]
    · have hb' : ¬ (k * d.NU + d.VARX ≤ t * d.NU + d.VARX + a ∧ t * d.NU + d.VARX + a < k * d.NU + d.VARX + d.NU) :=
        fun hh => e (hb.1 (by omega))
      rw [if_neg (c := k = t) e, if_neg (fun hh => hb' hh.1), if_neg (fun hh => hb' hh.1), add_zero]

theorem bfgsNode_full (d : Dims) (B : ℕ → ℕ → K) (hB : ∀ i j, B i j = B j i) {k : ℕ} (hk : k < d.NN) {A : Csc K} {M : ℕ → ℕ → K}
    (hs : HesStart d A.start) (hA : Holds A d.VAR d.VAR (hesPat d) M) :
    ∃ A', runOps d.VAR (bfgsNode d k B) A = some A' ∧ A'.start = A.start ∧
      Holds A' d.VAR d.VAR (hesPat d) fun r c => M r c + scatter2 d k (nodePart d k B) r c := by
  obtain ⟨f1, f2⟩ := idx_facts d hk
  obtain ⟨A', e, s, hA'⟩ := hA.addAll (bfgsNode d k B) (by
    intro o ho
    unfold bfgsNode at ho
    rcases List.mem_append.1 ho with ho | ho
    all_goals
      obtain ⟨j, hj, ho⟩ := List.mem_flatMap.1 ho
      rw [List.mem_range] at hj
      simp only [List.mem_cons, List.not_mem_nil, or_false] at ho
      have hV := VAR_eq d
    · have hx := hs.xu (c := k * d.NX + j) (by omega)
      unfold Dims.M at hx
      rcases ho with rfl | rfl
      · exact ⟨_, _, _, _, rfl, by omega, by omega⟩
      · exact ⟨_, _, _, _, rfl, by omega, by omega⟩
    · have hx := hs.xu (c := k * d.NU + d.VARX + j) (by omega)
      unfold Dims.M at hx
      rcases ho with rfl | rfl
      · exact ⟨_, _, _, _, rfl, by omega, by omega⟩
      · exact ⟨_, _, _, _, rfl, by omega, by omega⟩)
  refine ⟨A', e, s, hA'.congr fun c hc r hr hp => ?_⟩
  congr 1
  refine inc_full d (bfgsNode d k B) (nodePart d k B) hk (fun t ht j hj ρ hρ => bfgsNode_col d B hB hk ht hj hρ) (fun a ha ρ hρ => ?_) hp
  have z : ∀ i, nodePart d k B i (d.NX + d.NU + a) = 0 := fun i => by unfold nodePart; rw [if_neg (by omega)]
  simp only [z, ite_self, add_zero]
  unfold bfgsNode
  simp only [incOf_append, incOf_group2]
  rw [if_neg (by omega), if_neg (by omega), if_neg (by omega), if_neg (by omega)]; simp

/-- What the accesses for the parameters add. -/
theorem bfgsPar_full (d : Dims) (B : ℕ → ℕ → K) (hB : ∀ i j, B i j = B j i) {A : Csc K} {M : ℕ → ℕ → K}
    (hs : HesStart d A.start) (hA : Holds A d.VAR d.VAR (hesPat d) M) :
    ∃ A', runOps d.VAR (bfgsPar d B) A = some A' ∧ A'.start = A.start ∧
      Holds A' d.VAR d.VAR (hesPat d) fun r c => M r c + if d.VARX + d.VARU ≤ r ∨ d.VARX + d.VARU ≤ c then B r c else 0 := by
  have hV := VAR_eq d
  obtain ⟨A', e, s, hA'⟩ := hA.addAll (bfgsPar d B) (by
    intro o ho
    unfold bfgsPar at ho
    rcases List.mem_append.1 ho with ho | ho
    · obtain ⟨j, hj, ho⟩ := List.mem_flatMap.1 ho
      rw [List.mem_range] at hj
      simp only [List.mem_cons, List.not_mem_nil, or_false] at ho
      have hx := hs.p (c := d.VARX + d.VARU + j) (by omega) (by omega)
      rcases ho with rfl | rfl
      · exact ⟨_, _, _, _, rfl, by omega, by omega⟩
      · exact ⟨_, _, _, _, rfl, by omega, by omega⟩
    · obtain ⟨j, hj, rfl⟩ := List.mem_map.1 ho
      rw [List.mem_range] at hj
      have hx := hs.xu hj
      unfold Dims.M at hx
      exact ⟨_, _, _, _, rfl, by omega, by omega⟩)
  refine ⟨A', e, s, hA'.congr fun c hc r hr hp => ?_⟩
  congr 1
  show incOf (bfgsPar d B) c (rank (hesPat d c) r) = _
  have hl : bfgsPar d B = ((List.range d.NP).flatMap fun j =>
      [Op.add (d.VARX + d.VARU + j) 0 (d.VARX + d.VARU) (fun b => B b (d.VARX + d.VARU + j)),
       Op.add (d.VARX + d.VARU + j) (d.VARX + d.VARU) d.NP fun b => B (d.VARX + d.VARU + b) (d.VARX + d.VARU + j)]) ++
      ((List.range (d.VARX + d.VARU)).map fun j => Op.add (0 + j) (d.NX + d.NU) d.NP fun b => B j (d.VARX + d.VARU + b)) := by
    unfold bfgsPar; simp only [Nat.zero_add]
  rw [hl]
  simp only [incOf_append, incOf_group2, incOf_group]
  unfold hesPat at *
  have r1 := VARX_mul d
  have r2 := VARU_mul d
  rcases entry_cases d le_rfl hp with ⟨t, ht, i, hi, j, hj, rfl, rfl, hρ⟩ | ⟨t, ht, i, hi, a, ha, rfl, rfl, hρ⟩ |
    ⟨t, ht, i, hi, a, ha, rfl, rfl, hρ⟩ | ⟨_, b, hb, a, ha, rfl, rfl, hρ⟩
  · have hj' := nodeIdx_xu_lt d ht hj
    rw [hρ, if_neg (c := (d.VARX + d.VARU ≤ _ ∧ _) ∧ 0 ≤ i ∧ _) (by omega), if_neg (c := (d.VARX + d.VARU ≤ _ ∧ _) ∧ d.VARX + d.VARU ≤ i ∧ _) (by omega),
      add_zero, zero_add, Nat.sub_zero]
    unfold Dims.M at hi
    rcases Nat.lt_or_ge i (d.NX + d.NU) with h1 | h1
    · have := nodeIdx_xu_lt d ht h1
      rw [if_neg (by omega), if_neg (by omega)]
    · obtain ⟨q, rfl⟩ := Nat.exists_eq_add_of_le h1
      rw [nodeIdx_p d t q, if_pos (by omega), if_pos (by omega), Nat.add_sub_cancel_left, hB]
  · have hi' := xIdx_lt d ht hi
    rw [hρ, nodeIdx_x d t hi, if_pos (by omega), if_neg (by omega), if_neg (by omega), if_pos (by omega), add_zero, add_zero, Nat.sub_zero,
      Nat.add_sub_cancel_left]
  · have hi' := uIdx_lt d ht hi
    rw [hρ, nodeIdx_u d t hi, if_pos (by omega), if_neg (by omega), if_neg (by omega), if_pos (by omega), add_zero, add_zero, Nat.sub_zero,
      Nat.add_sub_cancel_left, r1, show d.VARX + (t * d.NU + i) = t * d.NU + d.VARX + i by omega]
  · rw [hρ, r1, r2, if_neg (by omega), if_pos (by omega), if_neg (by omega), if_pos (by omega), add_zero, zero_add, Nat.add_sub_cancel_left,
      Nat.add_sub_cancel_left]

/-- All accesses together add `B` on the pattern. -/
theorem bfgs_full (d : Dims) (B : ℕ → ℕ → K) (hB : ∀ i j, B i j = B j i) {A : Csc K} {M : ℕ → ℕ → K} (hA : HesForm d A M) :
    ∃ A', ((loop d.NN (fun k H => H.bind (runOps d.VAR (bfgsNode d k B))) (some A)).bind fun H =>
        if 0 < d.NP then runOps d.VAR (bfgsPar d B) H else some H) = some A' ∧ HesForm d A' fun r c => M r c + B r c := by
  have hloop : ∃ A1, loop d.NN (fun k H => H.bind (runOps d.VAR (bfgsNode d k B))) (some A) = some A1 ∧ HesStart d A1.start ∧
      Holds A1 d.VAR d.VAR (hesPat d) fun r c => M r c + ∑ k ∈ Finset.range d.NN, scatter2 d k (nodePart d k B) r c := by
    refine loop_inv (fun n (H : Option (Csc K)) => ∃ A1, H = some A1 ∧ HesStart d A1.start ∧
      Holds A1 d.VAR d.VAR (hesPat d) fun r c => M r c + ∑ k ∈ Finset.range n, scatter2 d k (nodePart d k B) r c)
      ⟨A, rfl, hA.start, hA.holds.congr fun c _ r _ _ => by simp⟩ fun n hn H hH => ?_
    obtain ⟨A1, rfl, s1, h1⟩ := hH
    obtain ⟨A2, e2, s2, h2⟩ := bfgsNode_full d B hB hn s1 h1
    exact ⟨A2, e2, by rw [s2]; exact s1, h2.congr fun c _ r _ _ => by rw [Finset.sum_range_succ, add_assoc]⟩
  obtain ⟨A1, e1, s1, h1⟩ := hloop
  rw [e1]
  have node : ∀ {r c : ℕ}, hesPat d c r = true → ¬ (d.VARX + d.VARU ≤ r ∨ d.VARX + d.VARU ≤ c) →
      ∑ k ∈ Finset.range d.NN, scatter2 d k (nodePart d k B) r c = B r c := by
    intro r c hp hn
    rcases (nodePat_iff d).1 hp with ⟨t, ht, i, hi, j, hj, hij, rfl, rfl⟩ | ⟨_, h, _⟩
    · have h1 : i < d.NX + d.NU := by
        by_contra h
        have := nodeIdx_ge d (t := t) (i := i) (by omega)
        omega
      have h2 : j < d.NX + d.NU := by
        by_contra h
        have := nodeIdx_ge d (t := t) (i := j) (by omega)
        omega
      rw [Finset.sum_eq_single t]
      · rw [scatter2_entry d ht ht hi hj hij, if_pos rfl]
        unfold nodePart
        rw [if_pos ⟨h1, h2⟩]
      · intro k hk hkt
        rw [scatter2_entry d (Finset.mem_range.1 hk) ht hi hj hij, if_neg hkt]
      · intro h; exact absurd (Finset.mem_range.2 ht) h
    · omega
  have par : ∀ {r c : ℕ}, hesPat d c r = true → (d.VARX + d.VARU ≤ r ∨ d.VARX + d.VARU ≤ c) →
      ∑ k ∈ Finset.range d.NN, scatter2 d k (nodePart d k B) r c = 0 := by
    intro r c hp hn
    refine Finset.sum_eq_zero fun k hk => ?_
    rw [Finset.mem_range] at hk
    rcases (nodePat_iff d).1 hp with ⟨t, ht, i, hi, j, hj, hij, rfl, rfl⟩ | ⟨_, ⟨h1, h2⟩, h3, h4⟩
    · have : ¬ (i < d.NX + d.NU ∧ j < d.NX + d.NU) := by
        rintro ⟨h1, h2⟩
        have := nodeIdx_xu_lt d ht h1
        have := nodeIdx_xu_lt d ht h2
        omega
      rw [scatter2_entry d hk ht hi hj hij]
      unfold nodePart
      rw [if_neg this, ite_self]
    · obtain ⟨b, rfl⟩ := Nat.exists_eq_add_of_le h1
      obtain ⟨a, rfl⟩ := Nat.exists_eq_add_of_le h3
      rw [VAR_eq] at h2 h4
      rw [scatter2_par d hk (by omega) (by omega)]
      unfold nodePart
      rw [if_neg (by omega)]
  by_cases hNP : 0 < d.NP
  · obtain ⟨A2, e2, s2, h2⟩ := bfgsPar_full d B hB s1 h1
    refine ⟨A2, ?_, by rw [s2]; exact s1, h2.congr fun c hc r hr hp => ?_⟩
    · show (if 0 < d.NP then _ else _) = _
      rw [if_pos hNP]; exact e2
    · by_cases h : d.VARX + d.VARU ≤ r ∨ d.VARX + d.VARU ≤ c
      · rw [if_pos h, par hp h, add_zero]
      · rw [if_neg h, node hp h, add_zero]
  · refine ⟨A1, ?_, s1, h1.congr fun c hc r hr hp => ?_⟩
    · show (if 0 < d.NP then _ else _) = _
      rw [if_neg hNP]
    · rw [VAR_eq] at hc hr
      rw [node hp (by omega)]

end PolyMPC.Ocp
