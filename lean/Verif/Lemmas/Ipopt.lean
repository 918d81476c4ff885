import Verif.Model.Ipopt
import Verif.Spec.Ipopt
import Verif.Lemmas.Sparse
import Mathlib.Data.List.GetD

/-! # Filling triplet arrays -/

namespace PolyMPC.Ipopt
open PolyMPC.Sparse PolyMPC.Spec

set_option linter.unusedSectionVars false

variable {K : Type}

/-- A list written into an array from the first entry on. -/
def filled (l : List K) (buf : ℕ → K) : ℕ → K := fun t => l.getD t (buf t)

theorem emit_run (cap : ℕ) (l : List K) (pre : List K) (buf : ℕ → K) :
    l.foldl (fun s v => emit cap v s) (if pre.length ≤ cap then some (pre.length, filled pre buf) else none) =
      if (pre ++ l).length ≤ cap then some ((pre ++ l).length, filled (pre ++ l) buf) else none := by
  induction l generalizing pre with
  | nil => simp
  | cons v l ih =>
    rw [List.foldl_cons]
    have h : emit cap v (if pre.length ≤ cap then some (pre.length, filled pre buf) else none) =
        if (pre ++ [v]).length ≤ cap then some ((pre ++ [v]).length, filled (pre ++ [v]) buf) else none := by
      rw [List.length_append, List.length_singleton]
      by_cases h1 : pre.length + 1 ≤ cap
      · rw [if_pos (by omega), if_pos h1]
        simp only [emit]
        rw [if_pos (by omega)]
        refine congrArg some (Prod.ext rfl (funext fun t => ?_))
        simp only [filled, Function.update_apply]
        rcases lt_trichotomy t pre.length with h2 | h2 | h2
        · rw [if_neg (by omega), List.getD_append _ _ _ _ h2]
        · subst h2; rw [if_pos rfl, List.getD_append_right _ _ _ _ le_rfl]; simp
        · rw [if_neg (by omega), List.getD_eq_default _ _ (by omega), List.getD_eq_default _ _ (by simp; omega)]
      · rw [if_neg h1]
        by_cases h2 : pre.length ≤ cap
        · rw [if_pos h2]; simp only [emit]; rw [if_neg (by omega)]
        · rw [if_neg h2]; rfl
    rw [h, ih (pre ++ [v]), List.append_assoc, List.singleton_append]

theorem emit_all (cap : ℕ) (l : List K) (buf : ℕ → K) :
    l.foldl (fun s v => emit cap v s) (some (0, buf)) = if l.length ≤ cap then some (l.length, filled l buf) else none := by
  have := emit_run cap l [] buf
  have e : filled [] buf = buf := funext fun t => by simp [filled]
  simpa [e] using this

theorem emit2_emit (cap : ℕ) (l : List (ℕ × ℕ)) (a : Option (ℕ × (ℕ → ℕ) × (ℕ → ℕ))) :
    l.foldl (fun s v => emit2 cap v.1 v.2 s) a =
      (l.foldl (fun s v => emit cap v s) (a.map fun s => (s.1, fun t => (s.2.1 t, s.2.2 t)))).map
        fun s => (s.1, (fun t => (s.2 t).1), fun t => (s.2 t).2) := by
  induction l generalizing a with
  | nil => cases a <;> rfl
  | cons v l ih =>
    rw [List.foldl_cons, List.foldl_cons, ih]
    congr 1
    congr 1
    rcases a with _ | ⟨ind, ir, jc⟩
    · rfl
    · simp only [emit2, emit, Option.map_some]
      by_cases h : ind < cap
      · rw [if_pos h, if_pos h, Option.map_some]
        refine congrArg some (Prod.ext rfl (funext fun t => ?_))
        simp only [Function.update_apply]
        split <;> rfl
      · rw [if_neg h, if_neg h]; rfl

theorem emit2_all (cap : ℕ) (l : List (ℕ × ℕ)) (ir jc : ℕ → ℕ) :
    (l.foldl (fun s v => emit2 cap v.1 v.2 s) (some (0, ir, jc))).map (fun s => s.2) =
      if l.length ≤ cap then some ((fun t => (l.getD t (ir t, jc t)).1), fun t => (l.getD t (ir t, jc t)).2) else none := by
  rw [emit2_emit, Option.map_some, emit_all]
  split <;> rfl

/-! ### Order of the entries -/

/-- Positions of a dense matrix in the order of the loops. -/
def denseOrder (m n : ℕ) : List (ℕ × ℕ) := (List.range n).flatMap fun j => (List.range m).map fun i => (i, j)

/-- Positions of the lower triangle. -/
def lowerOrder (n : ℕ) : List (ℕ × ℕ) := (denseOrder n n).filter fun p => p.2 ≤ p.1

/-- Stored entries of a sparse matrix in the order of the loops. -/
def spOrder (n : ℕ) (A : Csc K) : List ((ℕ × ℕ) × K) := (List.range n).flatMap fun k => (A.col k).map fun e => ((e.1, k), e.2)

/-- Stored entries of the lower triangle. -/
def spLower (n : ℕ) (A : Csc K) : List ((ℕ × ℕ) × K) := (spOrder n A).filter fun p => p.1.2 ≤ p.1.1

theorem nest_dense {S : Type} (m n : ℕ) (f : S → ℕ → ℕ → S) (s : S) :
    (List.range n).foldl (fun s j => (List.range m).foldl (fun s i => f s i j) s) s = (denseOrder m n).foldl (fun s p => f s p.1 p.2) s := by
  unfold denseOrder
  rw [List.foldl_flatMap]
  simp only [List.foldl_map]

theorem nest_sparse {S : Type} (n : ℕ) (A : Csc K) (f : S → ℕ → ℕ → K → S) (s : S) :
    (List.range n).foldl (fun s k => (A.col k).foldl (fun s e => f s e.1 k e.2) s) s = (spOrder n A).foldl (fun s p => f s p.1.1 p.1.2 p.2) s := by
  unfold spOrder
  rw [List.foldl_flatMap]
  simp only [List.foldl_map]

theorem foldl_guard {S P : Type} (l : List P) (c : P → Bool) (f : S → P → S) (s : S) :
    l.foldl (fun s p => if c p then f s p else s) s = (l.filter c).foldl f s := by
  rw [List.foldl_filter]

theorem getDataDense_eq (cap m n : ℕ) (A : ℕ → ℕ → K) (data : ℕ → K) :
    getDataDense cap m n A false data =
      if (denseOrder m n).length ≤ cap then some (filled ((denseOrder m n).map fun p => A p.1 p.2) data) else none := by
  unfold getDataDense
  rw [if_neg (by simp), nest_dense m n (fun s i j => emit cap (A i j) s), ← List.foldl_map (f := fun p : ℕ × ℕ => A p.1 p.2) (g := fun s v => emit cap v s),
    emit_all, List.length_map]
  split <;> rfl

theorem getDataDense_sym (cap n : ℕ) (A : ℕ → ℕ → K) (data : ℕ → K) :
    getDataDense cap n n A true data =
      if (lowerOrder n).length ≤ cap then some (filled ((lowerOrder n).map fun p => A p.1 p.2) data) else none := by
  unfold getDataDense
  have h := foldl_guard (denseOrder n n) (fun p => decide (p.2 ≤ p.1)) (fun s (p : ℕ × ℕ) => emit cap (A p.1 p.2) s) (some (0, data))
  simp only [decide_eq_true_eq] at h
  rw [if_pos rfl, nest_dense n n (fun s i j => if j ≤ i then emit cap (A i j) s else s), h]
  change Option.map _ ((lowerOrder n).foldl _ _) = _
  rw [← List.foldl_map (f := fun p : ℕ × ℕ => A p.1 p.2) (g := fun s v => emit cap v s), emit_all, List.length_map]
  split <;> rfl

theorem getDataSparse_sym (cap n : ℕ) (A : Csc K) (data : ℕ → K) :
    getDataSparse cap n A true data =
      if (spLower n A).length ≤ cap then some (filled ((spLower n A).map Prod.snd) data) else none := by
  unfold getDataSparse
  have h := foldl_guard (spOrder n A) (fun p => decide (p.1.2 ≤ p.1.1)) (fun s (p : (ℕ × ℕ) × K) => emit cap p.2 s) (some (0, data))
  simp only [decide_eq_true_eq] at h
  rw [if_pos rfl, nest_sparse n A (fun s i k v => if k ≤ i then emit cap v s else s), h]
  change Option.map _ ((spLower n A).foldl _ _) = _
  rw [← List.foldl_map (f := Prod.snd) (g := fun s v => emit cap v s), emit_all, List.length_map]
  split <;> rfl

theorem getSparsityDense_eq (cap m n : ℕ) (ir jc : ℕ → ℕ) :
    getSparsityDense cap m n false ir jc = if (denseOrder m n).length ≤ cap then
      some ((fun t => ((denseOrder m n).getD t (ir t, jc t)).1), fun t => ((denseOrder m n).getD t (ir t, jc t)).2) else none := by
  unfold getSparsityDense
  rw [if_neg (by simp), nest_dense m n (fun s i j => emit2 cap i j s)]
  exact emit2_all cap (denseOrder m n) ir jc

theorem getSparsityDense_sym (cap n : ℕ) (ir jc : ℕ → ℕ) :
    getSparsityDense cap n n true ir jc = if (lowerOrder n).length ≤ cap then
      some ((fun t => ((lowerOrder n).getD t (ir t, jc t)).1), fun t => ((lowerOrder n).getD t (ir t, jc t)).2) else none := by
  unfold getSparsityDense
  have h := foldl_guard (denseOrder n n) (fun p => decide (p.2 ≤ p.1)) (fun s (p : ℕ × ℕ) => emit2 cap p.1 p.2 s) (some (0, ir, jc))
  simp only [decide_eq_true_eq] at h
  rw [if_pos rfl, nest_dense n n (fun s i j => if j ≤ i then emit2 cap i j s else s), h]
  exact emit2_all cap (lowerOrder n) ir jc

theorem getSparsitySparse_eq (cap n : ℕ) (A : Csc K) (ir jc : ℕ → ℕ) :
    getSparsitySparse cap n A false ir jc = if (spOrder n A).length ≤ cap then
      some ((fun t => (((spOrder n A).map Prod.fst).getD t (ir t, jc t)).1), fun t => (((spOrder n A).map Prod.fst).getD t (ir t, jc t)).2) else none := by
  unfold getSparsitySparse
  rw [if_neg (by simp), nest_sparse n A (fun s i k v => emit2 cap i k s), ← List.length_map (f := Prod.fst) (as := spOrder n A)]
  rw [← emit2_all cap ((spOrder n A).map Prod.fst) ir jc, List.foldl_map]

theorem getSparsitySparse_sym (cap n : ℕ) (A : Csc K) (ir jc : ℕ → ℕ) :
    getSparsitySparse cap n A true ir jc = if (spLower n A).length ≤ cap then
      some ((fun t => (((spLower n A).map Prod.fst).getD t (ir t, jc t)).1), fun t => (((spLower n A).map Prod.fst).getD t (ir t, jc t)).2) else none := by
  unfold getSparsitySparse
  have h := foldl_guard (spOrder n A) (fun p => decide (p.1.2 ≤ p.1.1)) (fun s (p : (ℕ × ℕ) × K) => emit2 cap p.1.1 p.1.2 s) (some (0, ir, jc))
  simp only [decide_eq_true_eq] at h
  rw [if_pos rfl, nest_sparse n A (fun s i k v => if k ≤ i then emit2 cap i k s else s), h, ← List.length_map (f := Prod.fst) (as := spLower n A)]
  rw [← emit2_all cap ((spLower n A).map Prod.fst) ir jc, List.foldl_map]
  rfl

/-! ### Positions and counts -/

theorem mem_denseOrder {m n : ℕ} {p : ℕ × ℕ} : p ∈ denseOrder m n ↔ p.1 < m ∧ p.2 < n := by
  unfold denseOrder
  simp only [List.mem_flatMap, List.mem_range, List.mem_map]
  constructor
  · rintro ⟨j, hj, i, hi, rfl⟩; exact ⟨hi, hj⟩
  · rintro ⟨hi, hj⟩; exact ⟨p.2, hj, p.1, hi, rfl⟩

theorem nodup_denseOrder (m n : ℕ) : (denseOrder m n).Nodup := by
  unfold denseOrder
  rw [List.nodup_flatMap]
  refine ⟨fun j _ => List.Nodup.map (fun a b h => (Prod.mk.inj h).1) List.nodup_range, ?_⟩
  refine List.Nodup.pairwise_of_forall_ne List.nodup_range fun a _ b _ hab => ?_
  simp only [Function.onFun]
  intro p h1 h2
  simp only [List.mem_map] at h1 h2
  obtain ⟨i, _, rfl⟩ := h1
  obtain ⟨i', _, e⟩ := h2
  exact hab (Prod.mk.inj e).2.symm

theorem length_denseOrder (m n : ℕ) : (denseOrder m n).length = m * n := by
  unfold denseOrder
  rw [List.length_flatMap]
  simp [Nat.mul_comm]

theorem mem_lowerOrder {n : ℕ} {p : ℕ × ℕ} : p ∈ lowerOrder n ↔ p.2 ≤ p.1 ∧ p.1 < n := by
  unfold lowerOrder
  rw [List.mem_filter, mem_denseOrder, decide_eq_true_eq]
  constructor
  · rintro ⟨⟨h1, _⟩, h3⟩; exact ⟨h3, h1⟩
  · rintro ⟨h1, h2⟩; exact ⟨⟨h2, by omega⟩, h1⟩

theorem nodup_lowerOrder (n : ℕ) : (lowerOrder n).Nodup := (nodup_denseOrder n n).filter _

/-- Among the positions of a symmetric pattern with full diagonal, the lower triangle has (all + diagonal) / 2 of them. -/
theorem lower_count {n : ℕ} (P : ℕ → ℕ → Bool) (hs : ∀ i < n, ∀ j < n, P i j = P j i) (hd : ∀ i < n, P i i = true) :
    2 * ((Finset.range n ×ˢ Finset.range n).filter fun p => P p.2 p.1 = true ∧ p.2 ≤ p.1).card =
      (∑ c ∈ Finset.range n, rank (P c) n) + n := by
  set T := (Finset.range n ×ˢ Finset.range n).filter fun p => P p.2 p.1 = true with hT
  have hall : ∑ c ∈ Finset.range n, rank (P c) n = T.card := by
    have : T.card = ∑ c ∈ Finset.range n, ((Finset.range n).filter fun r => P c r = true).card := by
      rw [hT, Finset.card_filter, Finset.sum_product_right]
      exact Finset.sum_congr rfl fun c _ => by rw [Finset.card_filter]
    rw [this]
    exact Finset.sum_congr rfl fun c _ => by unfold rank; rw [Nat.count_eq_card_filter_range]
  have e1 : ((Finset.range n ×ˢ Finset.range n).filter fun p => P p.2 p.1 = true ∧ p.2 ≤ p.1) = T.filter fun p => p.2 ≤ p.1 := by
    rw [hT, Finset.filter_filter]
  have e2 : (T.filter fun p => p.1 ≤ p.2).card = (T.filter fun p => p.2 ≤ p.1).card := by
    refine Finset.card_bij' (fun p _ => (p.2, p.1)) (fun p _ => (p.2, p.1)) ?_ ?_ ?_ ?_
    · rintro ⟨a, b⟩ h
      simp only [hT, Finset.mem_filter, Finset.mem_product, Finset.mem_range] at h ⊢
      exact ⟨⟨⟨h.1.1.2, h.1.1.1⟩, by rw [hs _ h.1.1.1 _ h.1.1.2]; exact h.1.2⟩, h.2⟩
    · rintro ⟨a, b⟩ h
      simp only [hT, Finset.mem_filter, Finset.mem_product, Finset.mem_range] at h ⊢
      exact ⟨⟨⟨h.1.1.2, h.1.1.1⟩, by rw [hs _ h.1.1.1 _ h.1.1.2]; exact h.1.2⟩, h.2⟩
    · intro _ _; rfl
    · intro _ _; rfl
  have e3 : (T.filter fun p => p.2 ≤ p.1).card + (T.filter fun p => p.1 ≤ p.2).card = T.card + n := by
    rw [← Finset.card_union_add_card_inter]
    congr 1
    · congr 1
      ext p
      simp only [Finset.mem_union, Finset.mem_filter]
      have := le_total p.2 p.1
      tauto
    · have : ((T.filter fun p => p.2 ≤ p.1) ∩ T.filter fun p => p.1 ≤ p.2) = (Finset.range n).image fun i => (i, i) := by
        ext ⟨a, b⟩
        simp only [hT, Finset.mem_inter, Finset.mem_filter, Finset.mem_product, Finset.mem_range, Finset.mem_image, Prod.mk.injEq]
        constructor
        · rintro ⟨⟨⟨h1, h2⟩, h3⟩, _, h4⟩; exact ⟨a, h1.1, rfl, by omega⟩
        · rintro ⟨i, hi, rfl, rfl⟩; exact ⟨⟨⟨⟨hi, hi⟩, hd i hi⟩, le_rfl⟩, ⟨⟨hi, hi⟩, hd i hi⟩, le_rfl⟩
      rw [this, Finset.card_image_of_injective _ fun a b h => (Prod.mk.inj h).1, Finset.card_range]
  rw [e1, hall]
  omega

theorem length_lowerOrder (n : ℕ) : (lowerOrder n).length = denseNnzLagHessian n := by
  have h := lower_count (n := n) (fun _ _ => true) (fun _ _ _ _ => rfl) fun _ _ => rfl
  have e : ((Finset.range n ×ˢ Finset.range n).filter fun p => (fun _ _ => true : ℕ → ℕ → Bool) p.2 p.1 = true ∧ p.2 ≤ p.1) = (lowerOrder n).toFinset := by
    ext p
    simp only [Finset.mem_filter, Finset.mem_product, Finset.mem_range, List.mem_toFinset, mem_lowerOrder, true_and]
    omega
  rw [e, List.toFinset_card_of_nodup (nodup_lowerOrder n)] at h
  have : ∑ c ∈ Finset.range n, rank (fun _ => true) n = n * n := by
    rw [Finset.sum_const, Finset.card_range, rank_all fun _ _ => rfl, smul_eq_mul]
  rw [this] at h
  unfold denseNnzLagHessian
  rw [Nat.mul_add, Nat.mul_one]
  omega

/-! ### Assembling -/

/-- Triplets whose positions are those of a list without repetitions. -/
theorem triplets_list [AddCommMonoid K] (l : List ((ℕ × ℕ) × K)) (hl : (l.map Prod.fst).Nodup) (ir jc : ℕ → ℕ) (buf : ℕ → K) (i j : ℕ) :
    (∀ e ∈ l, e.1 = (i, j) → triplets l.length (fun t => ((l.map Prod.fst).getD t (ir t, jc t)).1) (fun t => ((l.map Prod.fst).getD t (ir t, jc t)).2)
        (filled (l.map Prod.snd) buf) i j = e.2) ∧
      ((∀ e ∈ l, e.1 ≠ (i, j)) → triplets l.length (fun t => ((l.map Prod.fst).getD t (ir t, jc t)).1)
        (fun t => ((l.map Prod.fst).getD t (ir t, jc t)).2) (filled (l.map Prod.snd) buf) i j = 0) := by
  have hget : ∀ t, ∀ h : t < l.length, (l.map Prod.fst).getD t (ir t, jc t) = l[t].1 ∧ filled (l.map Prod.snd) buf t = l[t].2 := by
    intro t h
    unfold filled
    rw [List.getD_eq_getElem _ _ (by simpa using h), List.getD_eq_getElem _ _ (by simpa using h), List.getElem_map, List.getElem_map]
    exact ⟨rfl, rfl⟩
  constructor
  · intro e he hp
    obtain ⟨t, ht, rfl⟩ := List.getElem_of_mem he
    unfold triplets
    rw [Finset.sum_eq_single t]
    · rw [if_pos (by beta_reduce; rw [(hget t ht).1, hp]; exact ⟨rfl, rfl⟩), (hget t ht).2]
    · intro s hs hst
      have hs := Finset.mem_range.1 hs
      rw [if_neg]
      beta_reduce
      rw [(hget s hs).1]
      rintro ⟨h1, h2⟩
      apply hst
      have : l[s].1 = l[t].1 := by rw [hp]; exact Prod.ext h1 h2
      have h3 : (l.map Prod.fst)[s]'(by simpa using hs) = (l.map Prod.fst)[t]'(by simpa using ht) := by simpa using this
      exact (List.Nodup.getElem_inj_iff hl).1 h3
    · intro h; exact absurd (Finset.mem_range.2 ht) h
  · intro h
    unfold triplets
    refine Finset.sum_eq_zero fun t ht => ?_
    have ht := Finset.mem_range.1 ht
    rw [if_neg]
    beta_reduce
    rw [(hget t ht).1]
    rintro ⟨h1, h2⟩
    exact h l[t] (List.getElem_mem ht) (Prod.ext h1 h2)

end PolyMPC.Ipopt
