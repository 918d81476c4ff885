import Verif.Lemmas.Ipopt
import Verif.Props.OcpSparse
import Verif.Lemmas.OcpSparseLag
import Mathlib.Data.EReal.Basic
import Mathlib.Algebra.Order.Field.Rat

/-!
# The Ipopt adapter

The structure arrays are filled once, the value arrays at every iterate, by different calls; Ipopt combines them entry by entry. The
theorems therefore assemble the structure of one call and the values of another with the specification's triplet format.
-/

namespace PolyMPC.Ipopt
open PolyMPC.Sparse PolyMPC.Spec

set_option linter.unusedSectionVars false

variable {K : Type}

/-! ### C59: dense problems -/

/-- **C59.** Dense constraint Jacobian. With arrays of the declared number of entries no write leaves the array, every entry is written
and in range, and the triplets are the matrix. -/
theorem dense_jacobian [AddCommMonoid K] (m n : ℕ) (A : ℕ → ℕ → K) (ir jc : ℕ → ℕ) (data : ℕ → K) :
    ∃ irow jcol v, getSparsityDense (denseNnzJacobian m n) m n false ir jc = some (irow, jcol) ∧
      getDataDense (denseNnzJacobian m n) m n A false data = some v ∧ InRange m n (denseNnzJacobian m n) irow jcol ∧
      ∀ i < m, ∀ j < n, triplets (denseNnzJacobian m n) irow jcol v i j = A i j := by
  have hlen : (denseOrder m n).length = denseNnzJacobian m n := length_denseOrder m n
  rw [getSparsityDense_eq, getDataDense_eq, if_pos hlen.le, if_pos hlen.le]
  refine ⟨_, _, _, rfl, rfl, fun t ht => ?_, fun i hi j hj => ?_⟩
  · beta_reduce
    rw [List.getD_eq_getElem _ _ (by omega)]
    exact mem_denseOrder.1 (List.getElem_mem _)
  · have h := (triplets_list ((denseOrder m n).map fun p => (p, A p.1 p.2)) (by
      rw [List.map_map]; exact (List.map_id _).symm ▸ nodup_denseOrder m n) ir jc data i j).1 ((i, j), A i j)
      (List.mem_map.2 ⟨(i, j), mem_denseOrder.2 ⟨hi, hj⟩, rfl⟩) rfl
    rw [List.length_map, hlen, List.map_map, List.map_map] at h
    have e : (Prod.fst ∘ fun p : ℕ × ℕ => (p, A p.1 p.2)) = id := rfl
    rw [e, List.map_id] at h
    exact h

/-- **C59.** Dense Lagrangian Hessian: the declared number is that of the lower triangle, the reported positions lie in it, and for a
symmetric matrix the triplets, read as one triangle of a symmetric matrix, are the matrix. -/
theorem dense_hessian [AddCommMonoid K] (n : ℕ) (A : ℕ → ℕ → K) (hA : ∀ i < n, ∀ j < n, A i j = A j i) (ir jc : ℕ → ℕ) (data : ℕ → K) :
    ∃ irow jcol v, getSparsityDense (denseNnzLagHessian n) n n true ir jc = some (irow, jcol) ∧
      getDataDense (denseNnzLagHessian n) n n A true data = some v ∧
      (∀ t < denseNnzLagHessian n, jcol t ≤ irow t ∧ irow t < n) ∧
      ∀ i < n, ∀ j < n, symTriplets (denseNnzLagHessian n) irow jcol v i j = A i j := by
  have hlen := length_lowerOrder n
  rw [getSparsityDense_sym, getDataDense_sym, if_pos hlen.le, if_pos hlen.le]
  refine ⟨_, _, _, rfl, rfl, fun t ht => ?_, fun i hi j hj => ?_⟩
  · beta_reduce
    rw [List.getD_eq_getElem _ _ (by omega)]
    exact mem_lowerOrder.1 (List.getElem_mem _)
  · have hd : (((lowerOrder n).map fun p => (p, A p.1 p.2)).map Prod.fst).Nodup := by
      rw [List.map_map]; exact (List.map_id _).symm ▸ nodup_lowerOrder n
    have e : (Prod.fst ∘ fun p : ℕ × ℕ => (p, A p.1 p.2)) = id := rfl
    have key : ∀ i j, i < n → j ≤ i → triplets (denseNnzLagHessian n) (fun t => ((lowerOrder n).getD t (ir t, jc t)).1)
        (fun t => ((lowerOrder n).getD t (ir t, jc t)).2) (filled ((lowerOrder n).map fun p => A p.1 p.2) data) i j = A i j := by
      intro i j hi hj
      have h := (triplets_list _ hd ir jc data i j).1 ((i, j), A i j) (List.mem_map.2 ⟨(i, j), mem_lowerOrder.2 ⟨hj, hi⟩, rfl⟩) rfl
      rw [List.length_map, hlen, List.map_map, List.map_map, e, List.map_id] at h
      exact h
    have key0 : ∀ i j, i < j → triplets (denseNnzLagHessian n) (fun t => ((lowerOrder n).getD t (ir t, jc t)).1)
        (fun t => ((lowerOrder n).getD t (ir t, jc t)).2) (filled ((lowerOrder n).map fun p => A p.1 p.2) data) i j = 0 := by
      intro i j hij
      have h := (triplets_list _ hd ir jc data i j).2 (by
        intro x hx hp
        obtain ⟨p, hp2, rfl⟩ := List.mem_map.1 hx
        have := (mem_lowerOrder.1 hp2).1
        rw [show p = (i, j) from hp] at this
        exact absurd this (by simp; omega))
      rw [List.length_map, hlen, List.map_map, List.map_map, e, List.map_id] at h
      exact h
    unfold symTriplets
    rcases lt_trichotomy i j with h | h | h
    · rw [key0 i j h, if_neg (by omega), zero_add, key j i hj h.le, hA i hi j hj]
    · subst h; rw [if_pos rfl, add_zero, key i i hi le_rfl]
    · rw [if_neg (by omega), key i j hi h.le, key0 j i h, add_zero]

/-! ### C59: sparse problems -/

/-- The same rows are stored in the same order in every column. -/
def SamePattern (n : ℕ) (A B : Csc K) : Prop := ∀ c < n, (A.col c).map Prod.fst = (B.col c).map Prod.fst

/-- No row occurs twice in a column. -/
def Distinct (n : ℕ) (A : Csc K) : Prop := ∀ c < n, ((A.col c).map Prod.fst).Nodup

theorem spOrder_fst (n : ℕ) (A : Csc K) : (spOrder n A).map Prod.fst = (List.range n).flatMap fun k => ((A.col k).map Prod.fst).map fun r => (r, k) := by
  unfold spOrder
  rw [List.map_flatMap]
  simp only [List.map_map]
  rfl

theorem SamePattern.order {n : ℕ} {A B : Csc K} (h : SamePattern n A B) : (spOrder n A).map Prod.fst = (spOrder n B).map Prod.fst := by
  rw [spOrder_fst, spOrder_fst]
  refine List.flatMap_congr fun k hk => ?_
  rw [h k (List.mem_range.1 hk)]

theorem spLower_fst (n : ℕ) (A : Csc K) : (spLower n A).map Prod.fst = ((spOrder n A).map Prod.fst).filter fun p => p.2 ≤ p.1 := by
  unfold spLower
  rw [List.filter_map]
  rfl

theorem SamePattern.lower {n : ℕ} {A B : Csc K} (h : SamePattern n A B) : (spLower n A).map Prod.fst = (spLower n B).map Prod.fst := by
  rw [spLower_fst, spLower_fst, h.order]

theorem Distinct.order {n : ℕ} {A : Csc K} (h : Distinct n A) : ((spOrder n A).map Prod.fst).Nodup := by
  rw [spOrder_fst, List.nodup_flatMap]
  refine ⟨fun k hk => (h k (List.mem_range.1 hk)).map fun a b e => (Prod.mk.inj e).1, ?_⟩
  refine List.Nodup.pairwise_of_forall_ne List.nodup_range fun a _ b _ hab => ?_
  simp only [Function.onFun]
  intro p h1 h2
  obtain ⟨i, _, rfl⟩ := List.mem_map.1 h1
  obtain ⟨i', _, e⟩ := List.mem_map.1 h2
  exact hab (Prod.mk.inj e).2.symm

theorem Distinct.lower {n : ℕ} {A : Csc K} (h : Distinct n A) : ((spLower n A).map Prod.fst).Nodup := by
  rw [spLower_fst]; exact h.order.filter _

theorem mem_spOrder {n : ℕ} {A : Csc K} {r c : ℕ} {v : K} : ((r, c), v) ∈ spOrder n A ↔ c < n ∧ (r, v) ∈ A.col c := by
  unfold spOrder
  simp only [List.mem_flatMap, List.mem_range, List.mem_map, Prod.mk.injEq]
  constructor
  · rintro ⟨k, hk, e, he, ⟨rfl, rfl⟩, rfl⟩; exact ⟨hk, he⟩
  · rintro ⟨hc, he⟩; exact ⟨c, hc, (r, v), he, ⟨rfl, rfl⟩, rfl⟩

theorem mem_spLower {n : ℕ} {A : Csc K} {r c : ℕ} {v : K} : ((r, c), v) ∈ spLower n A ↔ c < n ∧ (r, v) ∈ A.col c ∧ c ≤ r := by
  unfold spLower
  rw [List.mem_filter, mem_spOrder, decide_eq_true_eq, and_assoc]

theorem coeff_stored [Zero K] {A : Csc K} {r c : ℕ} {v : K} (h : ((A.col c).map Prod.fst).Nodup) (hv : (r, v) ∈ A.col c) : A.coeff r c = v := by
  unfold Csc.coeff
  have hs : ((A.col c).find? fun e => e.1 = r).isSome := List.find?_isSome.2 ⟨(r, v), hv, by simp⟩
  obtain ⟨e, he⟩ := Option.isSome_iff_exists.1 hs
  rw [he]
  have h1 := List.mem_of_find?_eq_some he
  have h2 : e.1 = r := by simpa using List.find?_some he
  have := List.inj_on_of_nodup_map h h1 hv h2
  rw [this]

theorem coeff_absent [Zero K] {A : Csc K} {r c : ℕ} (h : ∀ v, (r, v) ∉ A.col c) : A.coeff r c = 0 := by
  unfold Csc.coeff
  have : ((A.col c).find? fun e => e.1 = r) = none := by
    rw [List.find?_eq_none]
    rintro ⟨a, v⟩ he hr
    have : a = r := by simpa using hr
    exact h v (this ▸ he)
  rw [this]

/-- **C59.** Sparse Lagrangian Hessian. If the pattern of the matrix `A` evaluated now is that of the matrix `A0` from which the structure
was reported, and the arrays have as many entries as the lower triangle stores, then the triplets are the matrix: the lower triangle
always, all of it if it is symmetric. -/
theorem sparse_hessian [AddCommMonoid K] (n : ℕ) (A0 A : Csc K) (hp : SamePattern n A0 A) (hd : Distinct n A) (ir jc : ℕ → ℕ) (data : ℕ → K) :
    ∃ irow jcol v, getSparsitySparse (spLower n A0).length n A0 true ir jc = some (irow, jcol) ∧
      getDataSparse (spLower n A0).length n A true data = some v ∧
      (∀ i < n, ∀ j ≤ i, triplets (spLower n A0).length irow jcol v i j = A.coeff i j ∧ (j < i → triplets (spLower n A0).length irow jcol v j i = 0)) ∧
      ((∀ i < n, ∀ j < n, A.coeff i j = A.coeff j i) → ∀ i < n, ∀ j < n, symTriplets (spLower n A0).length irow jcol v i j = A.coeff i j) := by
  have hl : (spLower n A).length = (spLower n A0).length := by
    rw [← List.length_map (f := Prod.fst), ← List.length_map (f := Prod.fst) (as := spLower n A0), hp.lower]
  rw [getSparsitySparse_sym, getDataSparse_sym, if_pos le_rfl, if_pos hl.le, hp.lower, ← hl]
  have T := fun i j => triplets_list (spLower n A) hd.lower ir jc data i j
  have key : ∀ i, i < n → ∀ j, j ≤ i → triplets (spLower n A).length (fun t => (((spLower n A).map Prod.fst).getD t (ir t, jc t)).1)
      (fun t => (((spLower n A).map Prod.fst).getD t (ir t, jc t)).2) (filled ((spLower n A).map Prod.snd) data) i j = A.coeff i j ∧
      (j < i → triplets (spLower n A).length (fun t => (((spLower n A).map Prod.fst).getD t (ir t, jc t)).1)
      (fun t => (((spLower n A).map Prod.fst).getD t (ir t, jc t)).2) (filled ((spLower n A).map Prod.snd) data) j i = 0) := by
    intro i hi j hj
    constructor
    · by_cases h : ∃ v, (i, v) ∈ A.col j
      · obtain ⟨v, hv⟩ := h
        rw [coeff_stored (hd j (by omega)) hv]
        exact (T i j).1 ((i, j), v) (mem_spLower.2 ⟨by omega, hv, hj⟩) rfl
      · have h := not_exists.1 h
        rw [coeff_absent h]
        refine (T i j).2 ?_
        rintro ⟨⟨r, c⟩, v⟩ he hrc
        obtain ⟨rfl, rfl⟩ := Prod.mk.inj hrc
        exact h v (mem_spLower.1 he).2.1
    · intro hji
      refine (T j i).2 ?_
      rintro ⟨⟨r, c⟩, v⟩ he hrc
      obtain ⟨rfl, rfl⟩ := Prod.mk.inj hrc
      have := (mem_spLower.1 he).2.2
      omega
  refine ⟨_, _, _, rfl, rfl, key, fun hs i hi j hj => ?_⟩
  unfold symTriplets
  rcases lt_trichotomy i j with h | h | h
  · rw [(key j hj i h.le).2 h, if_neg (by omega), zero_add, (key j hj i h.le).1, hs i hi j hj]
  · subst h; rw [if_pos rfl, add_zero, (key i hi i le_rfl).1]
  · rw [if_neg (by omega), (key i hi j h.le).1, (key i hi j h.le).2 h, add_zero]

/-- **C59.** The reported structure of a sparse Jacobian is the storage order of its values: had entry `t` of the storage been copied to entry `t`
of the array, the triplets would be the matrix. -/
theorem sparse_jacobian_structure [AddCommMonoid K] (n : ℕ) (A : Csc K) (hd : Distinct n A) (ir jc : ℕ → ℕ) (data : ℕ → K) :
    ∃ irow jcol, getSparsitySparse (spOrder n A).length n A false ir jc = some (irow, jcol) ∧
      ∀ i, ∀ j < n, triplets (spOrder n A).length irow jcol (filled ((spOrder n A).map Prod.snd) data) i j = A.coeff i j := by
  rw [getSparsitySparse_eq, if_pos le_rfl]
  refine ⟨_, _, rfl, fun i j hj => ?_⟩
  have T := triplets_list (spOrder n A) hd.order ir jc data i j
  by_cases h : ∃ v, (i, v) ∈ A.col j
  · obtain ⟨v, hv⟩ := h
    rw [coeff_stored (hd j hj) hv]
    exact T.1 ((i, j), v) (mem_spOrder.2 ⟨hj, hv⟩) rfl
  · have h := not_exists.1 h
    rw [coeff_absent h]
    refine T.2 ?_
    rintro ⟨⟨r, c⟩, v⟩ he hrc
    obtain ⟨rfl, rfl⟩ := Prod.mk.inj hrc
    exact h v (mem_spOrder.1 he).2

/-- **C59 (negative).** The values of a sparse constraint Jacobian never reach Ipopt: the array is left as it was, whatever the problem
and the point. -/
theorem sparse_jacobian_unwritten [Zero K] (a : Adapter K) (jac : (ℕ → K) → Csc K) (cap : ℕ) (x : List K) (hx : a.n ≤ x.length) (values : ℕ → K) :
    evalJacGSparse a jac cap x values = some values := by
  unfold evalJacGSparse mapRead getDataSparse
  rw [if_pos hx]; rfl

/-- **C59 (negative).** With a zero-initialised array the Jacobian that Ipopt sees is zero, although the true one is not. -/
theorem sparse_jacobian_wrong [AddCommMonoid K] (n : ℕ) (A : Csc K) (ir jc : ℕ → ℕ) {i j : ℕ} (h : A.coeff i j ≠ 0) :
    ∃ irow jcol v, getSparsitySparse (spOrder n A).length n A false ir jc = some (irow, jcol) ∧
      getDataSparse (spOrder n A).length n A false (fun _ => 0) = some v ∧ triplets (spOrder n A).length irow jcol v i j ≠ A.coeff i j := by
  rw [getSparsitySparse_eq, if_pos le_rfl]
  refine ⟨_, _, fun _ => 0, rfl, by unfold getDataSparse; rfl, ?_⟩
  unfold triplets
  simp only [ite_self, Finset.sum_const_zero]
  exact fun e => h e.symm

/-! ### C97: the sparse optimal control problem declares the right numbers -/

section Ocp
open Ocp
variable [Field K] [DecidableEq K]

theorem holds_distinct {A : Csc K} {n m : ℕ} {P : ℕ → ℕ → Bool} {M : ℕ → ℕ → K} (h : Holds A n m P M) : Distinct n A := fun c hc => by
  rw [h.col_eq hc]
  unfold canon
  rw [List.map_map]
  exact (List.map_id _).symm ▸ List.nodup_range.filter _

theorem holds_same {A B : Csc K} {n m : ℕ} {P : ℕ → ℕ → Bool} {M M' : ℕ → ℕ → K} (h : Holds A n m P M) (h' : Holds B n m P M') :
    SamePattern n A B := fun c hc => by
  rw [h.col_eq hc, h'.col_eq hc]
  unfold canon
  rw [List.map_map, List.map_map]
  rfl

theorem holds_lower_card {A : Csc K} {n : ℕ} {P : ℕ → ℕ → Bool} {M : ℕ → ℕ → K} (h : Holds A n n P M) :
    (spLower n A).length = ((Finset.range n ×ˢ Finset.range n).filter fun p => P p.2 p.1 = true ∧ p.2 ≤ p.1).card := by
  rw [← List.length_map (f := Prod.fst), ← List.toFinset_card_of_nodup (holds_distinct h).lower]
  congr 1
  ext ⟨r, c⟩
  simp only [List.mem_toFinset, List.mem_map, Prod.exists, Finset.mem_filter, Finset.mem_product, Finset.mem_range]
  constructor
  · rintro ⟨r', c', v, he, e⟩
    obtain ⟨rfl, rfl⟩ := Prod.mk.inj e
    obtain ⟨hc, hv, hle⟩ := mem_spLower.1 he
    rw [h.col_eq hc] at hv
    unfold canon at hv
    simp only [List.mem_map, List.mem_filter, List.mem_range, Prod.mk.injEq] at hv
    obtain ⟨r', ⟨h1, h2⟩, rfl, _⟩ := hv
    exact ⟨⟨h1, hc⟩, h2, hle⟩
  · rintro ⟨⟨hr, hc⟩, hp, hle⟩
    refine ⟨r, c, M r c, mem_spLower.2 ⟨hc, ?_, hle⟩, rfl⟩
    rw [h.col_eq hc]
    unfold canon
    exact List.mem_map.2 ⟨r, List.mem_filter.2 ⟨List.mem_range.2 hr, hp⟩, rfl⟩

theorem length_spOrder (n : ℕ) (A : Csc K) : (spOrder n A).length = A.nonZeros n := by
  induction n with
  | zero => rfl
  | succ n ih =>
    unfold spOrder Csc.nonZeros at *
    rw [List.range_succ, List.flatMap_append, List.length_append, ih, Finset.sum_range_succ]
    simp [Csc.col]

theorem hesPat_symm (d : Dims) (c r : ℕ) : hesPat d c r = hesPat d r c := by
  have h : ∀ c r, hesPat d c r = true → hesPat d r c = true := by
    intro c r h
    unfold hesPat at *
    rw [nodePat_iff] at *
    rcases h with ⟨t, ht, i, hi, j, hj, hij, h1, h2⟩ | ⟨h1, h2, h3, h4⟩
    · exact Or.inl ⟨t, ht, j, hj, i, hi, hij.symm, h2, h1⟩
    · exact Or.inr ⟨h1, ⟨h3, h4⟩, h2.1, h2.2⟩
  rw [Bool.eq_iff_iff]
  exact ⟨h c r, h r c⟩

theorem hesPat_diag (d : Dims) {c : ℕ} (hc : c < d.VAR) : hesPat d c c = true := by
  unfold hesPat
  rw [nodePat_iff]
  rcases col_node d hc with ⟨t, ht, j, hj, e⟩ | ⟨a, ha, e⟩
  · exact Or.inl ⟨t, ht, j, by unfold Dims.M; omega, j, by unfold Dims.M; omega, Or.inl hj, e, e⟩
  · exact Or.inr ⟨rfl, ⟨by omega, hc⟩, by omega, hc⟩

/-- **C97.** The number of Hessian entries the sparse problem declares is the number of entries in the lower triangle of every Hessian it
assembles. -/
theorem ocp_hessian_count (d : Dims) {H : Csc K} {M : ℕ → ℕ → K} (h : HesForm d H M) : (spLower d.VAR H).length = nnzLagHessian d := by
  have e := lower_count (n := d.VAR) (hesPat d) (fun i _ j _ => hesPat_symm d i j) fun i hi => hesPat_diag d hi
  rw [← holds_lower_card h.holds] at e
  have e2 : ∑ c ∈ Finset.range d.VAR, rank (hesPat d c) d.VAR = sumNnz d (hesNnz d) :=
    Finset.sum_congr rfl fun c hc => rank_hesPat d (Finset.mem_range.1 hc)
  rw [e2] at e
  unfold nnzLagHessian
  omega

/-- **C97.** The Jacobian of the sparse problem: the declared number of entries is the number of positions reported after any successful call, so
the structure arrays are filled exactly. -/
theorem ocp_jacobian_count (d : Dims) (A : Approx K) (hX : 0 < d.NX) (hS : 1 ≤ d.S) (hN : 1 ≤ d.N) (hsk : SkewEnds d A) (hD : OffDiag d A)
    (cb : Cbs d K) (o o' : Obj d K) (junk jac0 : ℕ → ℕ → K) (var c0 c : ℕ → K) {m m' : SpJac K} (hm : Reach d A m)
    (e : constraintsLinSparse d A cb o junk jac0 var c0 m = some (c, m', o')) (ir jc : ℕ → ℕ) :
    ∃ irow jcol, getSparsitySparse (nnzJacobian d) d.VAR m'.J false ir jc = some (irow, jcol) ∧
      getSparsitySparse (nnzJacobian d - 1) d.VAR m'.J false ir jc = none := by
  have h := (reserved_exact d A hX hS hN hsk hD cb o o' junk jac0 var c0 c hm e).2
  have hpos := sum_nnz_pos d hX hS hN
  have h2 : 0 < nnzJacobian d := by unfold nnzJacobian; omega
  rw [getSparsitySparse_eq, getSparsitySparse_eq, length_spOrder, h, if_pos le_rfl, if_neg (by omega)]
  exact ⟨_, _, rfl, rfl⟩

end Ocp

section OcpHes
open Ocp
variable [Field K] [LinearOrder K]

/-- **C97.** The Hessian of the sparse problem as Ipopt sees it: after any two histories of calls that have assembled a Hessian, the
structure reported from the first and the values of the second, in arrays of the declared size, are the second matrix (its lower
triangle, and all of it if it is symmetric). -/
theorem ocp_hessian (d : Dims) (A : Approx K) (hX : 0 < d.NX) (hS : 1 ≤ d.S) (hN : 1 ≤ d.N) {H0 H : Csc K} (h0 : ReachH d A H0) (h : ReachH d A H)
    (n0 : ¬ Empty H0) (n1 : ¬ Empty H) (ir jc : ℕ → ℕ) (data : ℕ → K) :
    ∃ irow jcol v, getSparsitySparse (nnzLagHessian d) d.VAR H0 true ir jc = some (irow, jcol) ∧
      getDataSparse (nnzLagHessian d) d.VAR H true data = some v ∧
      (∀ i < d.VAR, ∀ j ≤ i, triplets (nnzLagHessian d) irow jcol v i j = H.coeff i j) ∧
      ((∀ i < d.VAR, ∀ j < d.VAR, H.coeff i j = H.coeff j i) → ∀ i < d.VAR, ∀ j < d.VAR, symTriplets (nnzLagHessian d) irow jcol v i j = H.coeff i j) := by
  obtain ⟨M0, f0⟩ := (h0.inv hX hS hN).resolve_left n0
  obtain ⟨M, f⟩ := (h.inv hX hS hN).resolve_left n1
  obtain ⟨irow, jcol, v, e1, e2, e3, e4⟩ := sparse_hessian d.VAR H0 H (holds_same f0.holds f.holds) (holds_distinct f.holds) ir jc data
  rw [ocp_hessian_count d f0] at e1 e2 e3 e4
  exact ⟨irow, jcol, v, e1, e2, fun i hi j hj => (e3 i hi j hj).1, e4⟩

end OcpHes

/-! ### C98: bounds -/

theorem mapWrite_in {R : Type} {off len t : ℕ} (f p : ℕ → R) (h : t < len) : mapWrite off len f p (off + t) = f t := by
  unfold mapWrite
  rw [if_pos ⟨by omega, by omega⟩]; congr 1; omega

theorem mapWrite_out {R : Type} {off len t : ℕ} (f p : ℕ → R) (h : t < off ∨ off + len ≤ t) : mapWrite off len f p t = p t := by
  unfold mapWrite
  rw [if_neg (by omega)]

theorem mapWrite_zero {R : Type} {len t : ℕ} (f p : ℕ → R) (h : t < len) : mapWrite 0 len f p t = f t := by
  have := mapWrite_in (off := 0) f p h
  rwa [Nat.zero_add] at this

/-- **C98.** A point is feasible for the program Ipopt is given exactly if it satisfies the user's problem: the equalities hold, the
inequality constraints lie between their bounds and the variables between theirs. The contents of the arrays before the call do not matter. -/
theorem bounds_feasible {R : Type} [Zero R] [PartialOrder R] (a : Adapter R) (h g : (ℕ → R) → ℕ → R) (x xl xu gl gu g0 : ℕ → R) :
    IpoptFeasible a.n (a.e + a.q) (getBoundsInfo a xl xu gl gu).1 (getBoundsInfo a xl xu gl gu).2.1 (getBoundsInfo a xl xu gl gu).2.2.1
        (getBoundsInfo a xl xu gl gu).2.2.2 x (evalG a h g x g0) ↔
      (∀ i < a.e, h x i = 0) ∧ (∀ i < a.q, a.lbg i ≤ g x i ∧ g x i ≤ a.ubg i) ∧ ∀ i < a.n, a.lbx i ≤ x i ∧ x i ≤ a.ubx i := by
  have heq : ∀ (b p : ℕ → R), ∀ i < a.e, (if 0 < a.q then mapWrite a.e a.q b (if 0 < a.e then mapWrite 0 a.e (fun _ => 0) p else p)
      else if 0 < a.e then mapWrite 0 a.e (fun _ => 0) p else p) i = 0 := by
    intro b p i hi
    have e : (if 0 < a.e then mapWrite 0 a.e (fun _ => 0) p else p) i = 0 := by
      rw [if_pos (by omega), mapWrite_zero _ _ hi]
    by_cases hq : 0 < a.q
    · rw [if_pos hq, mapWrite_out _ _ (Or.inl hi), e]
    · rw [if_neg hq, e]
  have hin : ∀ (b p : ℕ → R), ∀ i < a.q, (if 0 < a.q then mapWrite a.e a.q b p else p) (a.e + i) = b i := by
    intro b p i hi
    rw [if_pos (by omega), mapWrite_in _ _ hi]
  have e1 : ∀ i < a.e, evalG a h g x g0 i = h x i := fun i hi => by
    unfold evalG; rw [mapWrite_out _ _ (Or.inl hi), mapWrite_zero _ _ hi]
  have e2 : ∀ i < a.q, evalG a h g x g0 (a.e + i) = g x i := fun i hi => by unfold evalG; rw [mapWrite_in _ _ hi]
  unfold IpoptFeasible getBoundsInfo
  constructor
  · rintro ⟨h1, h2⟩
    refine ⟨fun i hi => ?_, fun i hi => ?_, fun i hi => ?_⟩
    · have := h2 i (by omega)
      simp only [heq _ _ i hi, e1 i hi] at this
      exact le_antisymm this.2 this.1
    · have := h2 (a.e + i) (by omega)
      simp only [hin _ _ i hi, e2 i hi] at this
      exact this
    · have := h1 i hi
      simp only [mapWrite_zero _ _ hi] at this
      exact this
  · rintro ⟨h1, h2, h3⟩
    refine ⟨fun i hi => ?_, fun i hi => ?_⟩
    · simp only [mapWrite_zero _ _ hi]; exact h3 i hi
    · by_cases hi2 : i < a.e
      · simp only [heq _ _ i hi2, e1 i hi2, h1 i hi2, le_refl, and_self]
      · obtain ⟨k, rfl⟩ := Nat.exists_eq_add_of_le (Nat.le_of_not_lt hi2)
        have hk : k < a.q := by omega
        simp only [hin _ _ k hk, e2 k hk]
        exact h2 k hk

/-- **C98.** An adapter on which no bound has been set constrains nothing but the equalities. -/
theorem default_bounds (n e q : ℕ) (h g : (ℕ → EReal) → ℕ → EReal) (x xl xu gl gu g0 : ℕ → EReal) :
    IpoptFeasible n (e + q) (getBoundsInfo (Adapter.make n e q) xl xu gl gu).1 (getBoundsInfo (Adapter.make n e q) xl xu gl gu).2.1
        (getBoundsInfo (Adapter.make n e q) xl xu gl gu).2.2.1 (getBoundsInfo (Adapter.make n e q) xl xu gl gu).2.2.2 x
        (evalG (Adapter.make n e q) h g x g0) ↔ ∀ i < e, h x i = 0 := by
  have := bounds_feasible (Adapter.make n e q) h g x xl xu gl gu g0
  simp only [Adapter.make] at this ⊢
  rw [this]
  simp

/-! ### C99: starting point -/

section Start
variable [Field K] [LinearOrder K] [IsStrictOrderedRing K]

/-- **C99.** The starting point is the stored guess: the variables, the constraint multipliers, and for the bounds the two non-negative
parts of the stored multiplier, at most one of which is non-zero. -/
theorem starting_point (a : Adapter K) (s : Start K) :
    (∀ i < a.n, (getStartingPoint a true true true s).x i = a.x i) ∧
      (∀ i < a.e + a.q, (getStartingPoint a true true true s).lambda i = a.lam i) ∧
      ∀ i < a.n, 0 ≤ (getStartingPoint a true true true s).zL i ∧ 0 ≤ (getStartingPoint a true true true s).zU i ∧
        (getStartingPoint a true true true s).zU i - (getStartingPoint a true true true s).zL i = a.lam (a.e + a.q + i) ∧
        (getStartingPoint a true true true s).zL i * (getStartingPoint a true true true s).zU i = 0 := by
  unfold getStartingPoint
  refine ⟨fun i hi => ?_, fun i hi => ?_, fun i hi => ?_⟩
  · simp only [if_true, mapWrite_zero _ _ hi]
  · simp only [if_true, mapWrite_zero _ _ hi]
  · simp only [if_true, mapWrite_zero _ _ hi]
    refine ⟨abs_nonneg _, le_max_right _ _, ?_, ?_⟩
    · rcases le_total (a.lam (a.e + a.q + i)) 0 with h | h
      · rw [min_eq_left h, max_eq_right h, abs_of_nonpos h]; ring
      · rw [min_eq_right h, max_eq_left h, abs_zero, sub_zero]
    · rcases le_total (a.lam (a.e + a.q + i)) 0 with h | h
      · rw [max_eq_right h, mul_zero]
      · rw [min_eq_right h, abs_zero, zero_mul]

/-- **C99.** Nothing that was not asked for is written. -/
theorem starting_point_flags (a : Adapter K) (s : Start K) : getStartingPoint a false false false s = s := rfl

/-- **C99.** A guess passed to `solve` is the starting point. -/
theorem guess_start (a : Adapter K) (x lam : ℕ → K) (s : Start K) :
    (∀ i < a.n, (getStartingPoint (guess a x lam) true true true s).x i = x i) ∧
      (∀ i < a.e + a.q, (getStartingPoint (guess a x lam) true true true s).lambda i = lam i) ∧
      ∀ i < a.n, (getStartingPoint (guess a x lam) true true true s).zU i - (getStartingPoint (guess a x lam) true true true s).zL i =
        lam (a.e + a.q + i) := by
  have h := starting_point (guess a x lam) s
  exact ⟨h.1, h.2.1, fun i hi => (h.2.2 i hi).2.2.1⟩

end Start

/-! ### C100: multipliers -/

/-- **C100 (negative).** Ipopt passes as many constraint multipliers as there are constraints; the adapter reads as many as there are
constraints and variables. Every evaluation of the Hessian reads behind the end of the array. -/
theorem hessian_out_of_bounds [Zero K] (a : Adapter K) (hess : (ℕ → K) → (ℕ → K) → K → ℕ → ℕ → K) (cap : ℕ) (x : List K) (s : K) (lambda : List K)
    (values : ℕ → K) (hn : 0 < a.n) (hl : lambda.length = a.e + a.q) : evalH a hess cap x s lambda values = none := by
  unfold evalH
  have : mapRead (a.e + a.q + a.n) lambda = none := by unfold mapRead; rw [if_neg (by omega)]
  rw [this]
  cases mapRead a.n x <;> rfl

/-- **C100 (negative).** So does storing the solution. -/
theorem finalize_out_of_bounds [Zero K] (a : Adapter K) (x zL zU g lambda : List K) (v : K) (hn : 0 < a.n) (hl : lambda.length = a.e + a.q) :
    finalizeSolution a x zL zU g lambda v = none := by
  unfold finalizeSolution
  have : mapRead (a.e + a.q + a.n) lambda = none := by unfold mapRead; rw [if_neg (by omega)]
  rw [this]
  cases mapRead a.n x <;> rfl

/-- **C100.** With an array of the size the adapter reads, the Hessian reaches Ipopt, evaluated at its point, its multipliers and its
factor for the objective. -/
theorem hessian_at_multipliers [AddCommMonoid K] (a : Adapter K) (hess : (ℕ → K) → (ℕ → K) → K → ℕ → ℕ → K) (x : List K) (s : K) (lambda : List K)
    (values : ℕ → K) (ir jc : ℕ → ℕ) (hx : a.n ≤ x.length) (hl : a.e + a.q + a.n ≤ lambda.length)
    (hsym : ∀ x lam s, ∀ i < a.n, ∀ j < a.n, hess x lam s i j = hess x lam s j i) :
    ∃ irow jcol v, getSparsityDense (denseNnzLagHessian a.n) a.n a.n true ir jc = some (irow, jcol) ∧
      evalH a hess (denseNnzLagHessian a.n) x s lambda values = some v ∧
      ∀ i < a.n, ∀ j < a.n, symTriplets (denseNnzLagHessian a.n) irow jcol v i j = hess (fun k => x.getD k 0) (fun k => lambda.getD k 0) s i j := by
  obtain ⟨irow, jcol, v, h1, h2, _, h3⟩ := dense_hessian a.n (hess (fun k => x.getD k 0) (fun k => lambda.getD k 0) s) (hsym _ _ _) ir jc values
  refine ⟨irow, jcol, v, h1, ?_, h3⟩
  unfold evalH mapRead
  rw [if_pos hx, if_pos hl]
  exact h2

/-- **C100.** The dense Jacobian Ipopt sees is the one at its point. -/
theorem jacobian_at_point [AddCommMonoid K] (a : Adapter K) (jac : (ℕ → K) → ℕ → ℕ → K) (x : List K) (values : ℕ → K) (ir jc : ℕ → ℕ)
    (hx : a.n ≤ x.length) :
    ∃ irow jcol v, getSparsityDense (denseNnzJacobian (a.e + a.q) a.n) (a.e + a.q) a.n false ir jc = some (irow, jcol) ∧
      evalJacG a jac (denseNnzJacobian (a.e + a.q) a.n) x values = some v ∧
      ∀ i < a.e + a.q, ∀ j < a.n, triplets (denseNnzJacobian (a.e + a.q) a.n) irow jcol v i j = jac (fun k => x.getD k 0) i j := by
  obtain ⟨irow, jcol, v, h1, h2, _, h3⟩ := dense_jacobian (a.e + a.q) a.n (jac fun k => x.getD k 0) ir jc values
  refine ⟨irow, jcol, v, h1, ?_, h3⟩
  unfold evalJacG mapRead
  rw [if_pos hx]
  exact h2

/-! ### Concrete cases -/

/-- A 2 by 3 Jacobian: all six triplets, column by column. -/
example : (getDataDense 6 2 3 (fun i j => (10 * i + j : ℚ)) false fun _ => 7).map (fun v => (List.range 7).map v) =
    some [0, 10, 1, 11, 2, 12, 7] := by decide +kernel

example : (getSparsityDense 6 3 3 true (fun _ => 9) fun _ => 9).map (fun v => ((List.range 7).map v.1, (List.range 7).map v.2)) =
    some ([0, 1, 2, 1, 2, 2, 9], [0, 0, 0, 1, 1, 2, 9]) := by decide +kernel

/-- One array entry too few: undefined. -/
example : (getDataDense 5 3 3 (fun i j => (10 * i + j : ℚ)) true fun _ => 7).isNone = true := by decide +kernel

/-- Columns `[(0, 4), (1, 5)]` and `[(0, 5), (1, 6)]`. -/
def sampleCsc : Csc ℚ where
  start c := 2 * c
  cnt _ := 2
  idx p := p % 2
  val p := [4, 5, 5, 6].getD p 0

example : (getDataSparse 3 2 sampleCsc true fun _ => 7).map (fun v => (List.range 4).map v) = some [4, 5, 6, 7] := by decide +kernel

/-- The Jacobian array stays as it was. -/
example : (getDataSparse 4 2 sampleCsc false fun _ => 7).map (fun v => (List.range 4).map v) = some [7, 7, 7, 7] := by decide +kernel

example : Distinct 2 sampleCsc := by
  intro c hc; interval_cases c <;> decide +kernel

example : sampleCsc.coeff 1 0 ≠ 0 := by decide +kernel

/-- One variable, one equality, one inequality. -/
def sampleAdapter : Adapter ℚ where
  n := 1
  e := 1
  q := 1
  x _ := 2
  lam i := [3, 4, -5].getD i 0
  cost := 0
  lbx _ := -1
  ubx _ := 1
  lbg _ := -2
  ubg _ := 2

example : (getBoundsInfo sampleAdapter (fun _ => 9) (fun _ => 9) (fun _ => 9) fun _ => 9).2.2.1 1 = -2 := by decide +kernel

example : ((getStartingPoint sampleAdapter true true true ⟨fun _ => 9, fun _ => 9, fun _ => 9, fun _ => 9⟩).zL 0,
    (getStartingPoint sampleAdapter true true true ⟨fun _ => 9, fun _ => 9, fun _ => 9, fun _ => 9⟩).zU 0) = ((5 : ℚ), (0 : ℚ)) := by decide +kernel

example : (finalizeSolution sampleAdapter [1] [0] [0] [0, 0] [3, 4] 1).isNone = true := by decide +kernel

/-- An array long enough for the read gives a defined result. -/
example : (finalizeSolution sampleAdapter [1] [0] [0] [0, 0] [3, 4, 0] 1).isSome = true := by decide +kernel

end PolyMPC.Ipopt
