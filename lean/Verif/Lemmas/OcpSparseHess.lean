import Verif.Model.OcpSparseHess
import Verif.Lemmas.OcpSparseCon
import Verif.Lemmas.OcpHess
import Verif.Lemmas.SparseAdd

/-! # Sparse second derivatives: pattern, ranks, groups of accesses -/

namespace PolyMPC.Ocp
open AD Sparse Sparse.Csc

set_option linter.unusedSectionVars false
set_option linter.unusedVariables false

/-! ### Positions -/

section Pat
variable (d : Dims)

theorem nodeIdx_xu_lt {t i : ℕ} (ht : t < d.NN) (hi : i < d.NX + d.NU) : nodeIdx d t i < d.VARX + d.VARU := by
  unfold nodeIdx
  by_cases h : i < d.NX
  · rw [if_pos h]; have := xIdx_lt d ht h; omega
  · rw [if_neg h, if_pos hi]; have := uIdx_lt d ht (show i - d.NX < d.NU by omega); omega

theorem nodeIdx_ge {t i : ℕ} (hi : d.NX + d.NU ≤ i) : nodeIdx d t i = d.VARX + d.VARU + (i - d.NX - d.NU) := by
  unfold nodeIdx; rw [if_neg (by omega), if_neg (by omega)]

theorem nodeIdx_node {t t' i j : ℕ} (ht : t < d.NN) (ht' : t' < d.NN) (hi : i < d.NX + d.NU) (hj : j < d.NX + d.NU)
    (h : nodeIdx d t i = nodeIdx d t' j) : t = t' ∧ i = j := by
  have ex : ∀ t < d.NN, ∀ i < d.NX, t * d.NX + i < d.VARX := fun t ht i hi => xIdx_lt d ht hi
  unfold nodeIdx at h
  by_cases h1 : i < d.NX <;> by_cases h2 : j < d.NX
  · rw [if_pos h1, if_pos h2] at h; exact blk_inj h1 h2 h
  · rw [if_pos h1, if_neg h2, if_pos hj] at h; have := ex t ht i h1; omega
  · rw [if_neg h1, if_pos h2, if_pos hi] at h; have := ex t' ht' j h2; omega
  · rw [if_neg h1, if_neg h2, if_pos hi, if_pos hj] at h
    have := blk_inj (n := d.NU) (show i - d.NX < d.NU by omega) (show j - d.NX < d.NU by omega) (k := t) (l := t') (by omega)
    exact ⟨this.1, by omega⟩

/-- A position other than a parameter belongs to exactly one node. -/
theorem nodeIdx_eq {t t' i j : ℕ} (ht : t < d.NN) (ht' : t' < d.NN) (hi : i < d.NX + d.NU) (hj : j < d.M)
    (h : nodeIdx d t i = nodeIdx d t' j) : t = t' ∧ i = j := by
  by_cases h2 : j < d.NX + d.NU
  · exact nodeIdx_node d ht ht' hi h2 h
  · have := nodeIdx_xu_lt d ht hi
    rw [h, nodeIdx_ge d (by omega)] at this; omega

open Classical in
/-- Entries of the Hessian of which both positions belong to one of the first `T` nodes, except the parameter block, which is included on
demand. -/
noncomputable def nodePat (T : ℕ) (pp : Bool) (c r : ℕ) : Bool :=
  decide ((∃ t < T, ∃ i < d.M, ∃ j < d.M, (i < d.NX + d.NU ∨ j < d.NX + d.NU) ∧ r = nodeIdx d t i ∧ c = nodeIdx d t j) ∨
    (pp = true ∧ (d.VARX + d.VARU ≤ r ∧ r < d.VAR) ∧ d.VARX + d.VARU ≤ c ∧ c < d.VAR))

theorem nodePat_iff {T : ℕ} {pp : Bool} {c r : ℕ} : nodePat d T pp c r = true ↔
    (∃ t < T, ∃ i < d.M, ∃ j < d.M, (i < d.NX + d.NU ∨ j < d.NX + d.NU) ∧ r = nodeIdx d t i ∧ c = nodeIdx d t j) ∨
    (pp = true ∧ (d.VARX + d.VARU ≤ r ∧ r < d.VAR) ∧ d.VARX + d.VARU ≤ c ∧ c < d.VAR) := by
  unfold nodePat; rw [decide_eq_true_eq]

/-- Entries of the Hessian. -/
noncomputable def hesPat : ℕ → ℕ → Bool := nodePat d d.NN true

theorem nodePat_col {T t j : ℕ} (hT : T ≤ d.NN) (ht : t < T) (hj : j < d.NX + d.NU) (pp : Bool) (r : ℕ) :
    nodePat d T pp (nodeIdx d t j) r = hitB d t r := by
  have htN : t < d.NN := by omega
  have hlt := nodeIdx_xu_lt d htN hj
  by_cases hr : r < d.VAR
  · rw [Bool.eq_iff_iff, nodePat_iff, hitB_iff d htN hr]
    constructor
    · rintro (⟨t', ht', i, hi, j', hj', _, rfl, e⟩ | ⟨_, _, h, _⟩)
      · obtain ⟨rfl, _⟩ := nodeIdx_eq d htN (show t' < d.NN by omega) hj hj' e
        exact ⟨i, hi, rfl⟩
      · omega
    · rintro ⟨i, hi, rfl⟩
      exact Or.inl ⟨t, ht, i, hi, j, by unfold Dims.M; omega, Or.inr hj, rfl, rfl⟩
  · have e1 : nodePat d T pp (nodeIdx d t j) r = false := by
      rw [Bool.eq_false_iff]
      intro h
      rcases (nodePat_iff d).1 h with ⟨t', ht', i, hi, j', hj', _, rfl, e⟩ | ⟨_, h, _, _⟩
      · exact hr (nodeIdx_lt d (show t' < d.NN by omega) hi)
      · omega
    have e2 : hitB d t r = false := by
      obtain ⟨f1, f2⟩ := idx_facts d htN
      rw [VAR_eq] at hr
      unfold hitB
      rw [decide_eq_false (by omega), decide_eq_false (by omega), decide_eq_false (by omega)]; rfl
    rw [e1, e2]

theorem nodePat_late {T t j : ℕ} (hT : T ≤ t) (ht : t < d.NN) (hj : j < d.NX + d.NU) (pp : Bool) (r : ℕ) :
    nodePat d T pp (nodeIdx d t j) r = false := by
  rw [Bool.eq_false_iff]
  intro h
  have hlt := nodeIdx_xu_lt d ht hj
  rcases (nodePat_iff d).1 h with ⟨t', ht', i, hi, j', hj', _, rfl, e⟩ | ⟨_, _, h, _⟩
  · obtain ⟨rfl, _⟩ := nodeIdx_eq d ht (show t' < d.NN by omega) hj hj' e
    omega
  · omega

theorem nodePat_par {T a : ℕ} (hT : T ≤ d.NN) (ha : a < d.NP) (pp : Bool) (r : ℕ) :
    nodePat d T pp (d.VARX + d.VARU + a) r = true ↔
      r < T * d.NX ∨ (d.VARX ≤ r ∧ r < d.VARX + T * d.NU) ∨ (pp = true ∧ d.VARX + d.VARU ≤ r ∧ r < d.VAR) := by
  have hTU : T * d.NU ≤ d.VARU := by unfold Dims.VARU; rw [Nat.mul_comm d.NU]; exact Nat.mul_le_mul_right _ hT
  have hTX : T * d.NX ≤ d.VARX := by unfold Dims.VARX; rw [Nat.mul_comm d.NX]; exact Nat.mul_le_mul_right _ hT
  rw [nodePat_iff]
  constructor
  · rintro (⟨t, ht, i, hi, j, hj, hij, rfl, e⟩ | ⟨h0, h1, _⟩)
    · have htN : t < d.NN := by omega
      have hi' : i < d.NX + d.NU := by
        rcases hij with h | h
        · exact h
        · have := nodeIdx_xu_lt d htN h; omega
      unfold nodeIdx
      by_cases h : i < d.NX
      · rw [if_pos h]; exact Or.inl (blk_le h ht)
      · rw [if_neg h, if_pos hi']
        have := blk_le (n := d.NU) (show i - d.NX < d.NU by omega) ht
        exact Or.inr (Or.inl ⟨by omega, by omega⟩)
    · exact Or.inr (Or.inr ⟨h0, h1⟩)
  · rintro (h | ⟨h1, h2⟩ | ⟨h0, h1⟩)
    · rw [Nat.mul_comm] at h
      obtain ⟨t, i, ht, hi, rfl⟩ := blk_split h
      exact Or.inl ⟨t, ht, i, by unfold Dims.M; omega, d.NX + d.NU + a, by unfold Dims.M; omega, Or.inl (by omega), (nodeIdx_x d t hi).symm,
        (nodeIdx_p d t a).symm⟩
    · obtain ⟨t, i, ht, hi, e⟩ := blk_split (n := d.NU) (r := r - d.VARX) (m := T) (by rw [Nat.mul_comm]; omega)
      exact Or.inl ⟨t, ht, d.NX + i, by unfold Dims.M; omega, d.NX + d.NU + a, by unfold Dims.M; omega, Or.inl (by omega),
        by rw [nodeIdx_u d t hi]; omega, (nodeIdx_p d t a).symm⟩
    · exact Or.inr ⟨h0, h1, by omega, by rw [VAR_eq]; omega⟩

/-! ### Ranks -/

theorem rank_seg_true {p : ℕ → Bool} {a b : ℕ} (hab : a ≤ b) (h : ∀ i, a ≤ i → i < b → p i = true) : rank p b = rank p a + (b - a) := by
  obtain ⟨n, rfl⟩ := Nat.exists_eq_add_of_le hab
  rw [rank_add, rank_all (p := fun i => p (a + i)) (r := n) fun i hi => h _ (by omega) (by omega), Nat.add_sub_cancel_left]

theorem rank_seg_false {p : ℕ → Bool} {a b : ℕ} (hab : a ≤ b) (h : ∀ i, a ≤ i → i < b → p i = false) : rank p b = rank p a := by
  obtain ⟨n, rfl⟩ := Nat.exists_eq_add_of_le hab
  rw [rank_add, rank_none (p := fun i => p (a + i)) (r := n) fun i hi => h _ (by omega) (by omega), Nat.add_zero]

theorem rank_hit_aux {t : ℕ} (ht : t < d.NN) :
    (∀ r, t * d.NX ≤ r → r ≤ t * d.NX + d.NX → rank (hitB d t) r = r - t * d.NX) ∧
    (∀ r, t * d.NU + d.VARX ≤ r → r ≤ t * d.NU + d.VARX + d.NU → rank (hitB d t) r = d.NX + (r - (t * d.NU + d.VARX))) ∧
    (∀ r, d.VARX + d.VARU ≤ r → r ≤ d.VAR → rank (hitB d t) r = d.NX + d.NU + (r - (d.VARX + d.VARU))) := by
  obtain ⟨f1, f2⟩ := idx_facts d ht
  have hT : ∀ r, ((t * d.NX ≤ r ∧ r < t * d.NX + d.NX) ∨ (t * d.NU + d.VARX ≤ r ∧ r < t * d.NU + d.VARX + d.NU) ∨
      (d.VARX + d.VARU ≤ r ∧ r < d.VARX + d.VARU + d.NP)) → hitB d t r = true := by
    intro r h
    unfold hitB
    rw [Bool.or_eq_true, Bool.or_eq_true, decide_eq_true_eq, decide_eq_true_eq, decide_eq_true_eq]; exact h
  have hF : ∀ r, ¬ ((t * d.NX ≤ r ∧ r < t * d.NX + d.NX) ∨ (t * d.NU + d.VARX ≤ r ∧ r < t * d.NU + d.VARX + d.NU) ∨
      (d.VARX + d.VARU ≤ r ∧ r < d.VARX + d.VARU + d.NP)) → hitB d t r = false := by
    intro r h
    rw [Bool.eq_false_iff]
    unfold hitB
    rw [ne_eq, Bool.or_eq_true, Bool.or_eq_true, decide_eq_true_eq, decide_eq_true_eq, decide_eq_true_eq]; exact h
  have e0 : rank (hitB d t) (t * d.NX) = 0 := rank_none fun i hi => hF i (by omega)
  have e1 : ∀ r, t * d.NX ≤ r → r ≤ t * d.NX + d.NX → rank (hitB d t) r = r - t * d.NX := fun r h1 h2 => by
    rw [rank_seg_true h1 fun i _ _ => hT i (by omega), e0]; omega
  have e2 : rank (hitB d t) (t * d.NU + d.VARX) = d.NX := by
    rw [rank_seg_false (a := t * d.NX + d.NX) (by omega) fun i _ _ => hF i (by omega), e1 _ (by omega) (by omega)]; omega
  have e3 : ∀ r, t * d.NU + d.VARX ≤ r → r ≤ t * d.NU + d.VARX + d.NU → rank (hitB d t) r = d.NX + (r - (t * d.NU + d.VARX)) :=
    fun r h1 h2 => by rw [rank_seg_true h1 fun i _ _ => hT i (by omega), e2]
  have e4 : rank (hitB d t) (d.VARX + d.VARU) = d.NX + d.NU := by
    rw [rank_seg_false (a := t * d.NU + d.VARX + d.NU) (by omega) fun i _ _ => hF i (by omega), e3 _ (by omega) (by omega)]; omega
  refine ⟨e1, e3, fun r h1 h2 => ?_⟩
  rw [VAR_eq] at h2
  rw [rank_seg_true h1 fun i _ _ => hT i (by omega), e4]

theorem rank_hit {t i : ℕ} (ht : t < d.NN) (hi : i < d.M) : rank (hitB d t) (nodeIdx d t i) = i := by
  obtain ⟨h1, h2, h3⟩ := rank_hit_aux d ht
  unfold Dims.M at hi
  unfold nodeIdx
  split_ifs with ha hb
  · rw [h1 _ (by omega) (by omega)]; omega
  · rw [h2 _ (by omega) (by omega)]; omega
  · rw [h3 _ (by omega) (by rw [VAR_eq]; omega)]; omega

theorem rank_hit_all {t : ℕ} (ht : t < d.NN) : rank (hitB d t) d.VAR = d.M := by
  rw [(rank_hit_aux d ht).2.2 _ (by rw [VAR_eq]; omega) le_rfl, VAR_eq]; unfold Dims.M; omega

theorem rank_par {T a : ℕ} (hT : T ≤ d.NN) (ha : a < d.NP) (pp : Bool) :
    (∀ r ≤ T * d.NX, rank (nodePat d T pp (d.VARX + d.VARU + a)) r = r) ∧
    (∀ r, d.VARX ≤ r → r ≤ d.VARX + T * d.NU → rank (nodePat d T pp (d.VARX + d.VARU + a)) r = T * d.NX + (r - d.VARX)) ∧
    (∀ r, d.VARX + d.VARU ≤ r → r ≤ d.VAR → rank (nodePat d T pp (d.VARX + d.VARU + a)) r
      = T * d.NX + T * d.NU + if pp then r - (d.VARX + d.VARU) else 0) := by
  have hTU : T * d.NU ≤ d.VARU := by unfold Dims.VARU; rw [Nat.mul_comm d.NU]; exact Nat.mul_le_mul_right _ hT
  have hTX : T * d.NX ≤ d.VARX := by unfold Dims.VARX; rw [Nat.mul_comm d.NX]; exact Nat.mul_le_mul_right _ hT
  have hp := fun r => nodePat_par d hT ha pp r
  have hF : ∀ r, ¬ (r < T * d.NX ∨ (d.VARX ≤ r ∧ r < d.VARX + T * d.NU) ∨ (pp = true ∧ d.VARX + d.VARU ≤ r ∧ r < d.VAR)) →
      nodePat d T pp (d.VARX + d.VARU + a) r = false := fun r h => by
    rw [Bool.eq_false_iff]; exact fun h' => h ((hp r).1 h')
  have e0 : ∀ r ≤ T * d.NX, rank (nodePat d T pp (d.VARX + d.VARU + a)) r = r := fun r hr => rank_all fun i hi => (hp i).2 (by omega)
  have e1 : rank (nodePat d T pp (d.VARX + d.VARU + a)) d.VARX = T * d.NX := by
    rw [rank_seg_false (a := T * d.NX) (by omega) fun i _ _ => hF i (by omega), e0 _ le_rfl]
  have e2 : ∀ r, d.VARX ≤ r → r ≤ d.VARX + T * d.NU → rank (nodePat d T pp (d.VARX + d.VARU + a)) r = T * d.NX + (r - d.VARX) :=
    fun r h1 h2 => by rw [rank_seg_true h1 fun i _ _ => (hp i).2 (by omega), e1]
  have e3 : rank (nodePat d T pp (d.VARX + d.VARU + a)) (d.VARX + d.VARU) = T * d.NX + T * d.NU := by
    rw [rank_seg_false (a := d.VARX + T * d.NU) (by omega) fun i _ _ => hF i (by omega), e2 _ (by omega) le_rfl]; omega
  refine ⟨e0, e2, fun r h1 h2 => ?_⟩
  cases pp with
  | true => rw [rank_seg_true h1 fun i _ _ => (hp i).2 (Or.inr (Or.inr ⟨rfl, by omega, by omega⟩)), e3, if_pos rfl]
  | false => rw [rank_seg_false h1 fun i _ _ => hF i (by simp; omega), e3]; rfl

theorem nodePat_lt {T : ℕ} (hT : T ≤ d.NN) {pp : Bool} {c r : ℕ} (h : nodePat d T pp c r = true) : r < d.VAR ∧ c < d.VAR := by
  rcases (nodePat_iff d).1 h with ⟨t, ht, i, hi, j, hj, _, rfl, rfl⟩ | ⟨_, h1, h2⟩
  · exact ⟨nodeIdx_lt d (by omega) hi, nodeIdx_lt d (by omega) hj⟩
  · exact ⟨h1.2, h2.2⟩

/-- A column belongs to a node or is a parameter. -/
theorem col_node {c : ℕ} (hc : c < d.VAR) : (∃ t < d.NN, ∃ j < d.NX + d.NU, c = nodeIdx d t j) ∨ ∃ a < d.NP, c = d.VARX + d.VARU + a := by
  rcases col_cases d hc with ⟨t, a, ht, ha, rfl⟩ | ⟨t, a, ht, ha, rfl⟩ | ⟨a, ha, rfl⟩
  · exact Or.inl ⟨t, ht, a, by omega, (nodeIdx_x d t ha).symm⟩
  · exact Or.inl ⟨t, ht, d.NX + a, by omega, (nodeIdx_u d t ha).symm⟩
  · exact Or.inr ⟨a, ha, rfl⟩

/-- The patterns fit into the reserved space. -/
theorem rank_nodePat_le {T : ℕ} (hT : T ≤ d.NN) (pp : Bool) {c : ℕ} (hc : c < d.VAR) : rank (nodePat d T pp c) d.VAR ≤ hesNnz d c := by
  rw [hesNnz_eq d hc]
  rcases col_node d hc with ⟨t, ht, j, hj, rfl⟩ | ⟨a, ha, rfl⟩
  · rw [if_pos (nodeIdx_xu_lt d ht hj)]
    rcases Nat.lt_or_ge t T with h | h
    · rw [rank_congr fun r _ => nodePat_col d hT h hj pp r, rank_hit_all d ht]; rfl
    · rw [rank_none fun r _ => nodePat_late d h ht hj pp r]; omega
  · rw [if_neg (by omega)]
    exact (rank_mono _ le_rfl).trans (by
      have : ∀ n, rank (nodePat d T pp (d.VARX + d.VARU + a)) n ≤ n := fun n => by
        induction n with
        | zero => rw [rank_zero]
        | succ n ih => rw [rank_succ]; split_ifs <;> omega
      exact this _)

theorem rank_hesPat {c : ℕ} (hc : c < d.VAR) : rank (hesPat d c) d.VAR = hesNnz d c := by
  rw [hesNnz_eq d hc]
  unfold hesPat
  rcases col_node d hc with ⟨t, ht, j, hj, rfl⟩ | ⟨a, ha, rfl⟩
  · rw [if_pos (nodeIdx_xu_lt d ht hj), rank_congr fun r _ => nodePat_col d le_rfl ht hj true r, rank_hit_all d ht]; rfl
  · rw [if_neg (by omega), (rank_par d le_rfl ha true).2.2 _ (by rw [VAR_eq]; omega) le_rfl, if_pos rfl, VAR_eq]
    unfold Dims.VARX Dims.VARU
    rw [Nat.mul_comm d.NX, Nat.mul_comm d.NU]; omega

theorem hesPat_sub {T : ℕ} (hT : T ≤ d.NN) {pp : Bool} {c r : ℕ} (h : nodePat d T pp c r = true) : hesPat d c r = true := by
  refine (nodePat_iff d).2 ?_
  rcases (nodePat_iff d).1 h with ⟨t, ht, h⟩ | ⟨_, h⟩
  · exact Or.inl ⟨t, by omega, h⟩
  · exact Or.inr ⟨rfl, h⟩

end Pat

/-! ### Node contributions at entries of the pattern -/

variable {K : Type} [Field K] [DecidableEq K]

theorem scatter2_entry (d : Dims) {k t i j : ℕ} (hk : k < d.NN) (ht : t < d.NN) (hi : i < d.M) (hj : j < d.M)
    (hij : i < d.NX + d.NU ∨ j < d.NX + d.NU) (h : ℕ → ℕ → K) :
    scatter2 d k h (nodeIdx d t i) (nodeIdx d t j) = if k = t then h i j else 0 := by
  unfold scatter2
  by_cases e : k = t
  · subst e
    rw [if_pos rfl, scatter_at d _ hk hi, scatter_at d _ hk hj]
  · rw [if_neg e]
    rcases hij with h' | h'
    · exact scatter_off d _ fun i' hi' e' => e (nodeIdx_eq d ht hk h' hi' e'.symm).1.symm
    · have : ∀ i', scatter d k (fun j' => h i' j') (nodeIdx d t j) = 0 := fun i' =>
        scatter_off d _ fun j' hj' e' => e (nodeIdx_eq d ht hk h' hj' e'.symm).1.symm
      simp only [this]
      exact scatter_zero d k _

theorem scatter2_par (d : Dims) {k a b : ℕ} (hk : k < d.NN) (ha : a < d.NP) (hb : b < d.NP) (h : ℕ → ℕ → K) :
    scatter2 d k h (d.VARX + d.VARU + b) (d.VARX + d.VARU + a) = h (d.NX + d.NU + b) (d.NX + d.NU + a) := by
  unfold scatter2
  rw [scatter_p d _ hk hb, scatter_p d _ hk ha]

theorem scatter2_miss (d : Dims) {k r c : ℕ} (hk : k < d.NN) (hm : nodePat d d.NN true c r = false) (hr : r < d.VAR) (hc : c < d.VAR)
    (h : ℕ → ℕ → K) : scatter2 d k h r c = 0 := by
  unfold scatter2
  rcases idx_cases d hk hr with ⟨i, hi, e, hn⟩ | ⟨i, hi, e, hn⟩ | ⟨i, hi, e, hn⟩ | ⟨_, _, _, hn⟩
  case inr.inr.inr => exact scatter_off d _ hn
  all_goals
    have hi' : ∃ i' < d.M, nodeIdx d k i' = r := ⟨_, by unfold Dims.M; omega, hn⟩
    have hz : ∀ i', scatter d k (fun j' => h i' j') c = 0 := by
      intro i'
      refine scatter_off d _ fun j hj e' => ?_
      obtain ⟨i2, hi2, hn2⟩ := hi'
      have : nodePat d d.NN true c r = true := by
        refine (nodePat_iff d).2 ?_
        by_cases hx : i2 < d.NX + d.NU ∨ j < d.NX + d.NU
        · exact Or.inl ⟨k, hk, i2, hi2, j, hj, hx, hn2.symm, e'.symm⟩
        · rw [not_or] at hx
          have e1 := nodeIdx_ge d (t := k) (i := i2) (by omega)
          have e2 := nodeIdx_ge d (t := k) (i := j) (by omega)
          exact Or.inr ⟨rfl, ⟨by omega, hr⟩, by omega, hc⟩
      rw [hm] at this; exact absurd this (by decide)
    simp only [hz]
    exact scatter_zero d k _

/-! ### What lists of additions contribute to an entry -/

/-- Contribution of a list of additions to the entry of rank `ρ` in column `c`. -/
def incOf (l : List (Op K)) (c ρ : ℕ) : K := (l.map fun o => opInc o c ρ).sum

theorem incOf_append (l l' : List (Op K)) (c ρ : ℕ) : incOf (l ++ l') c ρ = incOf l c ρ + incOf l' c ρ := by
  unfold incOf; rw [List.map_append, List.sum_append]

theorem incOf_group (c0 nc off k : ℕ) (f : ℕ → ℕ → K) (c ρ : ℕ) :
    incOf ((List.range nc).map fun j => Op.add (c0 + j) off k (f j)) c ρ
      = if (c0 ≤ c ∧ c < c0 + nc) ∧ off ≤ ρ ∧ ρ < off + k then f (c - c0) (ρ - off) else 0 := sum_group c0 nc off k f c ρ

theorem incOf_flat (n : ℕ) (g : ℕ → List (Op K)) (c ρ : ℕ) : incOf ((List.range n).flatMap g) c ρ = ((List.range n).map fun j => incOf (g j) c ρ).sum := by
  induction n with
  | zero => rfl
  | succ n ih =>
    rw [List.range_succ, List.flatMap_append, incOf_append, ih, List.map_append, List.sum_append]
    simp

theorem sum_map_add' (n : ℕ) (f g : ℕ → K) : ((List.range n).map fun j => f j + g j).sum = ((List.range n).map f).sum + ((List.range n).map g).sum := by
  induction n with
  | zero => simp
  | succ n ih =>
    rw [List.range_succ]
    simp only [List.map_append, List.sum_append, List.map_cons, List.map_nil, List.sum_cons, List.sum_nil, ih, add_zero]
    ring

/-- Two additions per column. -/
theorem incOf_group2 (c0 nc off k off' k' : ℕ) (f f' : ℕ → ℕ → K) (c ρ : ℕ) :
    incOf ((List.range nc).flatMap fun j => [Op.add (c0 + j) off k (f j), Op.add (c0 + j) off' k' (f' j)]) c ρ
      = (if (c0 ≤ c ∧ c < c0 + nc) ∧ off ≤ ρ ∧ ρ < off + k then f (c - c0) (ρ - off) else 0)
        + if (c0 ≤ c ∧ c < c0 + nc) ∧ off' ≤ ρ ∧ ρ < off' + k' then f' (c - c0) (ρ - off') else 0 := by
  rw [incOf_flat, ← incOf_group, ← incOf_group]
  unfold incOf
  rw [List.map_map, List.map_map, ← sum_map_add']
  simp [Function.comp_def]

/-- Three additions per column. -/
theorem incOf_group3 (c0 nc off k off' k' off2 k2 : ℕ) (f f' f2 : ℕ → ℕ → K) (c ρ : ℕ) :
    incOf ((List.range nc).flatMap fun j => [Op.add (c0 + j) off k (f j), Op.add (c0 + j) off' k' (f' j), Op.add (c0 + j) off2 k2 (f2 j)]) c ρ
      = (if (c0 ≤ c ∧ c < c0 + nc) ∧ off ≤ ρ ∧ ρ < off + k then f (c - c0) (ρ - off) else 0)
        + ((if (c0 ≤ c ∧ c < c0 + nc) ∧ off' ≤ ρ ∧ ρ < off' + k' then f' (c - c0) (ρ - off') else 0)
        + if (c0 ≤ c ∧ c < c0 + nc) ∧ off2 ≤ ρ ∧ ρ < off2 + k2 then f2 (c - c0) (ρ - off2) else 0) := by
  rw [incOf_flat, ← incOf_group, ← incOf_group, ← incOf_group]
  unfold incOf
  rw [List.map_map, List.map_map, List.map_map, ← sum_map_add', ← sum_map_add']
  simp [Function.comp_def]

theorem fits_append {start : ℕ → ℕ} {n : ℕ} {l l' : List (Op K)} (h : ∀ o ∈ l, AddFits start n o) (h' : ∀ o ∈ l', AddFits start n o) :
    ∀ o ∈ l ++ l', AddFits start n o := by
  intro o ho
  rcases List.mem_append.1 ho with ho | ho
  · exact h o ho
  · exact h' o ho

section Inc
variable (d : Dims) (h : ℕ → ℕ → K)

theorem hesAdd_x {k t a ρ : ℕ} (hk : k < d.NN) (ht : t < d.NN) (ha : a < d.NX) (hρ : ρ < d.M) :
    incOf (hesAdd d k h) (t * d.NX + a) ρ = if k = t then h ρ a else 0 := by
  have hx := xIdx_lt d ht ha
  have hb := blk t k ha
  unfold Dims.M at hρ
  unfold hesAdd
  simp only [incOf_append, incOf_group]
  by_cases e : k = t
  · subst e
    rw [if_pos rfl, if_neg (c := (k * d.NU + d.VARX ≤ _ ∧ _) ∧ 0 ≤ ρ ∧ _) (by omega), if_neg (c := (d.VARX + d.VARU ≤ _ ∧ _) ∧ k * d.NX ≤ ρ ∧ _) (by omega),
      if_neg (c := (k * d.NU + d.VARX ≤ _ ∧ _) ∧ d.NX ≤ ρ ∧ _) (by omega), if_neg (c := (d.VARX + d.VARU ≤ _ ∧ _) ∧ d.VARX + k * d.NU ≤ ρ ∧ _) (by omega),
      if_neg (c := (k * d.NU + d.VARX ≤ _ ∧ _) ∧ d.NX + d.NU ≤ ρ ∧ _) (by omega)]
    rw [show k * d.NX + a - k * d.NX = a by omega]
    rcases Nat.lt_or_ge ρ d.NX with h1 | h1
    · rw [if_pos (by omega), if_neg (by omega), if_neg (by omega)]; simp
    rcases Nat.lt_or_ge ρ (d.NX + d.NU) with h2 | h2
    · rw [if_neg (by omega), if_pos (by omega), if_neg (by omega), show d.NX + (ρ - d.NX) = ρ by omega]; simp
    · rw [if_neg (by omega), if_neg (by omega), if_pos (by omega), show d.NX + d.NU + (ρ - (d.NX + d.NU)) = ρ by omega]; simp
  · have hb' : ¬ (k * d.NX ≤ t * d.NX + a ∧ t * d.NX + a < k * d.NX + d.NX) := fun hh => e (hb.1 hh)
    rw [if_neg e]
    simp only [hb', false_and, if_false]
    rw [if_neg (by omega), if_neg (by omega), if_neg (by omega), if_neg (by omega), if_neg (by omega)]
    simp

theorem hesAdd_u {k t a ρ : ℕ} (hk : k < d.NN) (ht : t < d.NN) (ha : a < d.NU) (hρ : ρ < d.M) :
    incOf (hesAdd d k h) (t * d.NU + d.VARX + a) ρ = if k = t then h ρ (d.NX + a) else 0 := by
  have hx := uIdx_lt d ht ha
  have hb := blk t k ha
  have hf := (idx_facts d hk).1
  unfold Dims.M at hρ
  unfold hesAdd
  simp only [incOf_append, incOf_group]
  rw [if_neg (c := (k * d.NX ≤ _ ∧ _) ∧ 0 ≤ ρ ∧ _) (by omega), if_neg (c := (d.VARX + d.VARU ≤ _ ∧ _) ∧ k * d.NX ≤ ρ ∧ _) (by omega),
    if_neg (c := (k * d.NX ≤ _ ∧ _) ∧ d.NX ≤ ρ ∧ _) (by omega), if_neg (c := (d.VARX + d.VARU ≤ _ ∧ _) ∧ d.VARX + k * d.NU ≤ ρ ∧ _) (by omega),
    if_neg (c := (k * d.NX ≤ _ ∧ _) ∧ d.NX + d.NU ≤ ρ ∧ _) (by omega)]
  by_cases e : k = t
  · subst e
    rw [if_pos (c := k = k) rfl, show k * d.NU + d.VARX + a - (k * d.NU + d.VARX) = a by omega]
    rcases Nat.lt_or_ge ρ d.NX with h1 | h1
    · rw [if_pos (by omega), if_neg (by omega), if_neg (by omega)]; simp
    rcases Nat.lt_or_ge ρ (d.NX + d.NU) with h2 | h2
    · rw [if_neg (by omega), if_pos (by omega), if_neg (by omega), show d.NX + (ρ - d.NX) = ρ by omega]; simp
    · rw [if_neg (by omega), if_neg (by omega), if_pos (by omega), show d.NX + d.NU + (ρ - (d.NX + d.NU)) = ρ by omega]; simp
  · have hb' : ¬ (k * d.NU + d.VARX ≤ t * d.NU + d.VARX + a ∧ t * d.NU + d.VARX + a < k * d.NU + d.VARX + d.NU) :=
      fun hh => e (hb.1 (by omega))
    rw [if_neg (c := k = t) e]
    simp only [hb', false_and, if_false]
    simp

theorem hesAdd_p {k a ρ : ℕ} (hk : k < d.NN) (ha : a < d.NP) :
    incOf (hesAdd d k h) (d.VARX + d.VARU + a) ρ
      = (if k * d.NX ≤ ρ ∧ ρ < k * d.NX + d.NX then h (ρ - k * d.NX) (d.NX + d.NU + a) else 0)
        + if d.VARX + k * d.NU ≤ ρ ∧ ρ < d.VARX + k * d.NU + d.NU then h (d.NX + (ρ - (d.VARX + k * d.NU))) (d.NX + d.NU + a) else 0 := by
  obtain ⟨f1, f2⟩ := idx_facts d hk
  have e1 : ¬ (k * d.NX ≤ d.VARX + d.VARU + a ∧ d.VARX + d.VARU + a < k * d.NX + d.NX) := by omega
  have e2 : ¬ (k * d.NU + d.VARX ≤ d.VARX + d.VARU + a ∧ d.VARX + d.VARU + a < k * d.NU + d.VARX + d.NU) := by omega
  have e3 : d.VARX + d.VARU ≤ d.VARX + d.VARU + a ∧ d.VARX + d.VARU + a < d.VARX + d.VARU + d.NP := by omega
  unfold hesAdd
  simp only [incOf_append, incOf_group]
  rw [show d.VARX + d.VARU + a - (d.VARX + d.VARU) = a by omega]
  simp only [e1, e2, false_and, if_false, e3, true_and, and_self, zero_add, add_zero]

theorem mayerAdd_inc (c ρ : ℕ) :
    incOf (mayerAdd d h) c ρ = incOf (hesAdd d 0 h) c ρ
      + if (d.VARX + d.VARU ≤ c ∧ c < d.VARX + d.VARU + d.NP) ∧ d.VARX + d.VARU ≤ ρ ∧ ρ < d.VARX + d.VARU + d.NP then
          h (d.NX + d.NU + (ρ - (d.VARX + d.VARU))) (d.NX + d.NU + (c - (d.VARX + d.VARU))) else 0 := by
  rw [← incOf_group (d.VARX + d.VARU) d.NP (d.VARX + d.VARU) d.NP (fun j b => h (d.NX + d.NU + b) (d.NX + d.NU + j))]
  unfold mayerAdd hesAdd
  simp only [incOf_append, Nat.zero_mul, Nat.zero_add, Nat.add_zero]
  ring

theorem hesCols_x {k t a ρ : ℕ} (hk : k < d.NN) (ht : t < d.NN) (ha : a < d.NX) (hρ : ρ < d.M) :
    incOf (hesCols d k h) (t * d.NX + a) ρ = if k = t then h ρ a else 0 := by
  have hx := xIdx_lt d ht ha
  have hb := blk t k ha
  unfold Dims.M at hρ
  unfold hesCols
  simp only [incOf_append, incOf_group, incOf_group3]
  rw [if_neg (c := (k * d.NU + d.VARX ≤ _ ∧ _) ∧ 0 ≤ ρ ∧ _) (by omega), if_neg (c := (d.VARX + d.VARU ≤ _ ∧ _) ∧ k * d.NX ≤ ρ ∧ _) (by omega),
    if_neg (c := (d.VARX + d.VARU ≤ _ ∧ _) ∧ d.VARX + k * d.NU ≤ ρ ∧ _) (by omega),
    if_neg (c := (d.VARX + d.VARU ≤ _ ∧ _) ∧ d.VARX + d.VARU ≤ ρ ∧ _) (by omega)]
  by_cases e : k = t
  · subst e
    rw [if_pos (c := k = k) rfl, if_pos (by omega), show k * d.NX + a - k * d.NX = a by omega]; simp
  · rw [if_neg (c := k = t) e, if_neg (fun hh : (_ ∧ _) ∧ _ => e (hb.1 hh.1))]; simp

theorem hesCols_u {k t a ρ : ℕ} (hk : k < d.NN) (ht : t < d.NN) (ha : a < d.NU) (hρ : ρ < d.M) :
    incOf (hesCols d k h) (t * d.NU + d.VARX + a) ρ = if k = t then h ρ (d.NX + a) else 0 := by
  have hx := uIdx_lt d ht ha
  have hb := blk t k ha
  have hf := (idx_facts d hk).1
  unfold Dims.M at hρ
  unfold hesCols
  simp only [incOf_append, incOf_group, incOf_group3]
  rw [if_neg (c := (k * d.NX ≤ _ ∧ _) ∧ 0 ≤ ρ ∧ _) (by omega), if_neg (c := (d.VARX + d.VARU ≤ _ ∧ _) ∧ k * d.NX ≤ ρ ∧ _) (by omega),
    if_neg (c := (d.VARX + d.VARU ≤ _ ∧ _) ∧ d.VARX + k * d.NU ≤ ρ ∧ _) (by omega),
    if_neg (c := (d.VARX + d.VARU ≤ _ ∧ _) ∧ d.VARX + d.VARU ≤ ρ ∧ _) (by omega)]
  by_cases e : k = t
  · subst e
    rw [if_pos (c := k = k) rfl, if_pos (by omega), show k * d.NU + d.VARX + a - (k * d.NU + d.VARX) = a by omega]; simp
  · rw [if_neg (c := k = t) e, if_neg (fun hh : (_ ∧ _) ∧ _ => e (hb.1 (by omega)))]; simp

theorem hesCols_p {k a ρ : ℕ} (hk : k < d.NN) (ha : a < d.NP) :
    incOf (hesCols d k h) (d.VARX + d.VARU + a) ρ
      = (if k * d.NX ≤ ρ ∧ ρ < k * d.NX + d.NX then h (ρ - k * d.NX) (d.NX + d.NU + a) else 0)
        + ((if d.VARX + k * d.NU ≤ ρ ∧ ρ < d.VARX + k * d.NU + d.NU then h (d.NX + (ρ - (d.VARX + k * d.NU))) (d.NX + d.NU + a) else 0)
        + if d.VARX + d.VARU ≤ ρ ∧ ρ < d.VARX + d.VARU + d.NP then h (d.NX + d.NU + (ρ - (d.VARX + d.VARU))) (d.NX + d.NU + a) else 0) := by
  obtain ⟨f1, f2⟩ := idx_facts d hk
  have e1 : ¬ (k * d.NX ≤ d.VARX + d.VARU + a ∧ d.VARX + d.VARU + a < k * d.NX + d.NX) := by omega
  have e2 : ¬ (k * d.NU + d.VARX ≤ d.VARX + d.VARU + a ∧ d.VARX + d.VARU + a < k * d.NU + d.VARX + d.NU) := by omega
  have e3 : d.VARX + d.VARU ≤ d.VARX + d.VARU + a ∧ d.VARX + d.VARU + a < d.VARX + d.VARU + d.NP := by omega
  unfold hesCols
  simp only [incOf_append, incOf_group, incOf_group3]
  rw [show d.VARX + d.VARU + a - (d.VARX + d.VARU) = a by omega]
  simp only [e1, e2, false_and, if_false, e3, true_and, and_self, zero_add, add_zero]

end Inc

/-! ### The additions stay within their columns -/

/-- Starts of the columns of the Hessian. -/
def HesStart (d : Dims) (start : ℕ → ℕ) : Prop := ∀ c ≤ d.VAR, start c = ∑ i ∈ Finset.range c, hesNnz d i

theorem HesStart.step {d : Dims} {start : ℕ → ℕ} (hs : HesStart d start) {c : ℕ} (hc : c < d.VAR) : start (c + 1) = start c + hesNnz d c := by
  rw [hs _ (by omega), hs _ (by omega), Finset.sum_range_succ]

theorem HesStart.xu {d : Dims} {start : ℕ → ℕ} (hs : HesStart d start) {c : ℕ} (hc : c < d.VARX + d.VARU) : start (c + 1) = start c + d.M := by
  rw [hs.step (by rw [VAR_eq]; omega), hesNnz_eq d (by rw [VAR_eq]; omega), if_pos hc]; rfl

theorem HesStart.p {d : Dims} {start : ℕ → ℕ} (hs : HesStart d start) {c : ℕ} (h : d.VARX + d.VARU ≤ c) (hc : c < d.VAR) :
    start (c + 1) = start c + d.VAR := by
  rw [hs.step hc, hesNnz_eq d hc, if_neg (by omega)]

section Fits
variable {d : Dims} {start : ℕ → ℕ} (hs : HesStart d start)
include hs

theorem fits_x {k off n : ℕ} (hk : k < d.NN) (hn : off + n ≤ d.M) (f : ℕ → ℕ → K) :
    ∀ o ∈ (List.range d.NX).map fun j => Op.add (k * d.NX + j) off n (f j), AddFits start d.VAR o := by
  have hf := idx_facts d hk
  exact fits_group f (by rw [VAR_eq]; omega) fun c h1 h2 => by rw [hs.xu (by omega)]; omega

theorem fits_u {k off n : ℕ} (hk : k < d.NN) (hn : off + n ≤ d.M) (f : ℕ → ℕ → K) :
    ∀ o ∈ (List.range d.NU).map fun j => Op.add (k * d.NU + d.VARX + j) off n (f j), AddFits start d.VAR o := by
  have hf := idx_facts d hk
  exact fits_group f (by rw [VAR_eq]; omega) fun c h1 h2 => by rw [hs.xu (by omega)]; omega

theorem fits_p {off n : ℕ} (hn : off + n ≤ d.VAR) (f : ℕ → ℕ → K) :
    ∀ o ∈ (List.range d.NP).map fun j => Op.add (d.VARX + d.VARU + j) off n (f j), AddFits start d.VAR o :=
  fits_group f (by rw [VAR_eq]) fun c h1 h2 => by rw [hs.p h1 (by rw [VAR_eq]; omega)]; omega

theorem fits_hesAdd {k : ℕ} (hk : k < d.NN) (h : ℕ → ℕ → K) : ∀ o ∈ hesAdd d k h, AddFits start d.VAR o := by
  have hf := idx_facts d hk
  have hV := VAR_eq d
  unfold hesAdd
  refine fits_append (fits_append (fits_append (fits_append (fits_append (fits_append (fits_append
    (fits_x hs hk ?_ _) (fits_u hs hk ?_ _)) (fits_p hs ?_ _)) (fits_u hs hk ?_ _)) (fits_x hs hk ?_ _)) (fits_p hs ?_ _)) (fits_x hs hk ?_ _))
    (fits_u hs hk ?_ _)
  all_goals (try unfold Dims.M); omega

theorem fits_mayerAdd (h : ℕ → ℕ → K) : ∀ o ∈ mayerAdd d h, AddFits start d.VAR o := by
  have h0 : 0 < d.NN := by unfold Dims.NN; omega
  have hf := idx_facts d h0
  have hV := VAR_eq d
  have e : mayerAdd d h = ((List.range d.NX).map fun j => Op.add (0 * d.NX + j) 0 d.NX fun b => h b j) ++
    ((List.range d.NU).map fun j => Op.add (0 * d.NU + d.VARX + j) 0 d.NX fun b => h b (d.NX + j)) ++
    ((List.range d.NP).map fun j => Op.add (d.VARX + d.VARU + j) 0 d.NX fun b => h b (d.NX + d.NU + j)) ++
    ((List.range d.NU).map fun j => Op.add (0 * d.NU + d.VARX + j) d.NX d.NU fun b => h (d.NX + b) (d.NX + j)) ++
    ((List.range d.NX).map fun j => Op.add (0 * d.NX + j) d.NX d.NU fun b => h (d.NX + b) j) ++
    ((List.range d.NP).map fun j => Op.add (d.VARX + d.VARU + j) d.VARX d.NU fun b => h (d.NX + b) (d.NX + d.NU + j)) ++
    ((List.range d.NP).map fun j => Op.add (d.VARX + d.VARU + j) (d.VARX + d.VARU) d.NP fun b => h (d.NX + d.NU + b) (d.NX + d.NU + j)) ++
    ((List.range d.NX).map fun j => Op.add (0 * d.NX + j) (d.NX + d.NU) d.NP fun b => h (d.NX + d.NU + b) j) ++
    ((List.range d.NU).map fun j => Op.add (0 * d.NU + d.VARX + j) (d.NX + d.NU) d.NP fun b => h (d.NX + d.NU + b) (d.NX + j)) := by
    unfold mayerAdd; simp only [Nat.zero_mul, Nat.zero_add]
  rw [e]
  refine fits_append (fits_append (fits_append (fits_append (fits_append (fits_append (fits_append (fits_append
    (fits_x hs h0 ?_ _) (fits_u hs h0 ?_ _)) (fits_p hs ?_ _)) (fits_u hs h0 ?_ _)) (fits_x hs h0 ?_ _)) (fits_p hs ?_ _)) (fits_p hs ?_ _))
    (fits_x hs h0 ?_ _)) (fits_u hs h0 ?_ _)
  all_goals (try unfold Dims.M); omega

theorem fits_hesCols {k : ℕ} (hk : k < d.NN) (h : ℕ → ℕ → K) : ∀ o ∈ hesCols d k h, AddFits start d.VAR o := by
  have hf := idx_facts d hk
  have hV := VAR_eq d
  unfold hesCols
  refine fits_append (fits_append (fits_x hs hk (by unfold Dims.M; omega) _) (fits_u hs hk (by unfold Dims.M; omega) _)) ?_
  intro o ho
  obtain ⟨j, hj, ho⟩ := List.mem_flatMap.1 ho
  rw [List.mem_range] at hj
  have hp := hs.p (c := d.VARX + d.VARU + j) (by omega) (by omega)
  simp only [List.mem_cons, List.not_mem_nil, or_false] at ho
  rcases ho with rfl | rfl | rfl
  · exact ⟨_, _, _, _, rfl, by omega, by omega⟩
  · exact ⟨_, _, _, _, rfl, by omega, by omega⟩
  · exact ⟨_, _, _, _, rfl, by omega, by omega⟩

end Fits

end PolyMPC.Ocp
